M=[]
def m(id,file,d,old,new,edit,claims,**k): M.append(dict(id=id,file=file,**{"def":d},old=old,new=new,edit=edit,claims=claims.split(),**k))
# fields
m("F1","Fields.lean","zpAdd","let result := (a + b) % P\n    some (if result = 0","let result := (a + b) % P\n    some (if result = 1","sum is reported as zero when it is 1","C01")
m("F2","Fields.lean","zpNeg","else some (P - a)","else some (P - a - 1)","off by one in additive_inverse","C01 C02")
m("F3","Fields.lean","z13Inv","| 6 => some 11","| 6 => some 10","wrong table entry for 6 in Z13","C01")
m("F4","Fields.lean","zpMul","if a * b > u8Max then none","if a * b > 2 * u8Max then none","overflow check too late","C02")
m("F5","Fields.lean","Q.add","((lcd / a.den : Nat) : Int) * a.num + ((lcd / b.den : Nat) : Int) * b.num","((lcd / b.den : Nat) : Int) * a.num + ((lcd / a.den : Nat) : Int) * b.num","cofactors swapped in Q::add","C03")
m("F6","Fields.lean","Q.inv","⟨sign * (a.den : Int), a.num.natAbs⟩","⟨(a.den : Int), a.num.natAbs⟩","sign dropped in Q::mult_inverse","C03")
m("F7","Fields.lean","Q.mul","def mul (a b : Q) : Q := reduce ⟨a.num * b.num, a.den * b.den⟩","def mul (a b : Q) : Q := ⟨a.num * b.num, a.den * b.den⟩","missing reduce: results are not in lowest terms (derived equality breaks)","C03")
m("F8","Fields.lean","Z2","  add _ _ := none\n  mul","  add a _ := some a\n  mul","1 + 1 = 1 in Z2","C01")
m("F9","Fields.lean","addOpt","  | none => some a\n  | some b => add a b","  | none => none\n  | some b => add a b","a + None = None","C01 C04",tightened=["C01_add_option"])
# columns
m("K1","Columns.lean","popLoop","    else popLoop h' wi (NonZeroCoeff.addOpt next.coeff ws) wf","    else popLoop h' wi ws wf","equal rows are skipped instead of added","C04 C05")
m("K2","Columns.lean","popLoop","      | some c => (some ⟨wf, wi, c⟩, h)","      | some c => (some ⟨wf, wi, c⟩, h')","pop_pivot drops the first entry of the next row","C04 C05 C06")
m("K3","Columns.lean","popLoop","      | none => popLoop h' next.row (NonZeroCoeff.addOpt next.coeff none) next.filt","      | none => (none, h)","pop_pivot returns None when the leading row cancels","C04 C16")
m("K4","Columns.lean","popLoop","      | none => popLoop h' next.row (NonZeroCoeff.addOpt next.coeff none) next.filt","      | none => popLoop h' next.row (NonZeroCoeff.addOpt next.coeff none) wf","stale filtration value after a cancellation","C04")
m("K5","Columns.lean","clonePivot","  | (some pivot, h') => (some pivot, addEntry h' pivot)","  | (some pivot, h') => (some pivot, h')","clone_pivot does not push the pivot back","C06")
m("K6","Columns.lean","Entry.key","def key (e : Entry F Row CF) : F ×ₗ Row := toLex (e.filt, e.row)","def key [LinearOrder F] [LinearOrder Row] (e : Entry F Row CF) : Row ×ₗ F := toLex (e.row, e.filt)","entries ordered by row before filtration","C04 C05")
m("K7","Columns.lean","Entry.scale","coeff := NonZeroCoeff.mul e.coeff m }","coeff := e.coeff }","scaling an entry ignores the multiplier","C17")
# matrices
m("M1","Matrices.lean","prodColumn","(NonZeroCoeff.mul u.1 t.1, u.2)","(u.1, u.2)","product drops the right coefficient","C08")
m("M2","Matrices.lean","productF","coeff := NonZeroCoeff.mul e.coeff t.1, row","coeff := e.coeff, row","filtered product drops the right coefficient","C08 C32")
m("M3","Matrices.lean","sumOracle","fun r => l ++ r","fun r => if l.isEmpty then r else l","sum ignores the right summand when the left is non-empty","C09")
m("M4","Matrices.lean","Oracle.eqOnCol","decide (la.map Entry.toTuple = lb.map Entry.toTuple)","decide (la.map Entry.row = lb.map Entry.row)","eq_on_col compares only the rows","C07")
m("M5","Matrices.lean","Oracle.eqOnCol","decide (la.map Entry.toTuple = lb.map Entry.toTuple)","((la.zip lb).all fun p => decide (p.1.toTuple = p.2.toTuple))","eq_on_col zips (ignores a longer tail)","C07")
m("M6","Matrices.lean","Basis.reverse","element i := if i < B.size then (B.element (B.size - 1 - i)).map OrderDual.toDual else none","element i := if i ≤ B.size then (B.element (B.size - i)).map OrderDual.toDual else none","ReverseBasis uses size - index (as its doc says)","C14")
m("M7","Matrices.lean","FOracle.reverse","  filt r := (M.filt (OrderDual.ofDual r)).map OrderDual.toDual\n  colF c := (M.colF (OrderDual.ofDual c)).map fun l => l.map fun e =>","  filt r := (M.filt (OrderDual.ofDual r)).map OrderDual.toDual\n  colF c := (M.colF (OrderDual.ofDual c)).map fun l => l.tail.map fun e =>","column_with_filtration of a reversed matrix skips the first entry","C13 C32")
m("M8","Matrices.lean","Basis.reverseLookup","lookupFrom B (List.range B.size) fun _ => none","lookupFrom B (List.range (B.size - 1)) fun _ => none","reverse lookup misses the last element","C15")
m("M9","Matrices.lean","FOracle.usingColBasisIndex","⟨fun i => (B.element i).bind M.column⟩","⟨fun i => (B.element (i + 1)).bind M.column⟩","off by one in the basis index","C40")
m("M10","Matrices.lean","Oracle.consolidateColumn","fun es => es.map fun e => (e.coeff, e.row)","fun es => es.reverse.map fun e => (e.coeff, e.row)","consolidate yields increasing order","C10")
m("M11","Matrices.lean","CacheState.request","      if s.borrowed then none\n      else some","      some","no panic while another iterator is alive","C12")
m("M12","Matrices.lean","CacheState.request","{ cache := mapInsert s.cache c l, iters","{ cache := s.cache, iters","the column is not stored","C11")
m("M13","Matrices.lean","CacheIter.next","  | some (x :: xs) => (some x, { it with inner := some xs, yielded","  | some (x :: xs) => (some x, { it with inner := if xs.isEmpty then none else some xs, yielded","the borrow is released one item early","C12")
m("M14","Matrices.lean","CacheState.request","  | some l => some { s with iters := s.iters ++ [⟨c, [], some l, false, false⟩] }","  | some l => some { s with iters := s.iters ++ [⟨c, [], some l.tail, false, false⟩] }","a cached column loses its first entry","C11")
m("M15","Matrices.lean","FOracle.withBasis","def FOracle.withBasis (M : FOracle CF Col Row F) : FOracle CF Col Row F := M.toOracle.withFilt M.filt","def FOracle.withBasis (M : FOracle CF Col Row F) : FOracle CF Col Row F := M","MatrixWithBasis forwards the override (exposing the RipsCoboundary defect)","C32 C33")
# reduction
m("R1","Reduction.lean","stdReduce","        let m := NonZeroCoeff.mul (NonZeroCoeff.neg e.coeff) (NonZeroCoeff.inv jc)\n        let vMatrix := (mapVecMatrix v)","        let m := NonZeroCoeff.mul e.coeff (NonZeroCoeff.inv jc)\n        let vMatrix := (mapVecMatrix v)","wrong sign of the column multiplier","C16 C17")
m("R2","Reduction.lean","stdReduce","        let m := NonZeroCoeff.mul (NonZeroCoeff.neg e.coeff) (NonZeroCoeff.inv jc)\n        let vMatrix := (mapVecMatrix v)","        let m := NonZeroCoeff.mul (NonZeroCoeff.neg e.coeff) jc\n        let vMatrix := (mapVecMatrix v)","multiplier not inverted","C16 C17")
m("R3","Reduction.lean","stdReduce","stdReduce D v low fuel (r2.addEntries (re.map fun x => x.scale m)) (vi.addEntries (ve.map fun x => x.scale m))","stdReduce D v low fuel (r2.addEntries (re.map fun x => x.scale m)) (vi.addEntries ve)","V column not scaled","C17")
m("R4","Reduction.lean","stdReduce","      let r2 := r1.addEntry e\n","      let r2 := r1\n","pivot not pushed back","C16 C17")
m("R5","Reduction.lean","stdColumn","    | some e => mapInsert s.low e.row (b, e.coeff)","    | some e => mapInsert s.low e.row (b, NonZeroCoeff.one)","the coefficient of the pivot is not stored","C16 C17")
m("R6","Reduction.lean","stdColumn","    | none => s.low\n","    | none => mapInsert s.low b (b, NonZeroCoeff.one)\n","a zero column is registered as a pivot","C17 C18")
m("R7","Reduction.lean","readLoop","{ essential := d.essential.erase piv.row, pairings","{ essential := d.essential, pairings","births stay essential","C19 C25")
m("R8","Reduction.lean","readLoop","pairings := insert (piv.row, b) d.pairings }","pairings := insert (b, piv.row) d.pairings }","birth and death swapped","C18 C25")
m("R9","Reduction.lean","readOffDiagram","(if reverseOrder then (List.range B.size).reverse else List.range B.size)","(if reverseOrder then List.range B.size else (List.range B.size).reverse)","reverse_order flag inverted","C19")
m("R10","Reduction.lean","crmColumn","    | .reduced vec => some (vec ++ [(NonZeroCoeff.one, c)])","    | .reduced vec => some vec","the implicit diagonal entry is forgotten","C21 C22")
m("R11","Reduction.lean","crmColumn","    | .cleared j => prodColumn D ⟨crmColumn D rc n⟩ j","    | .cleared j => crmColumn D rc n j","a cleared column is V_j instead of D V_j","C21 C24")
m("R12","Reduction.lean","colIsCycle","    | .cleared _ => some true","    | .cleared _ => some false","cleared columns reported as non-cycles","C24")
m("R13","Reduction.lean","clrSave","    | some e =>\n      (⟨⟨s.diagram.essential, insert (e.row, b) s.diagram.pairings⟩, mapInsert s.rc e.row (.cleared b)⟩,","    | some e =>\n      (⟨⟨s.diagram.essential, insert (e.row, b) s.diagram.pairings⟩, s.rc⟩,","no clearing: the birth column is reduced again and reported essential","C22 C23 C25")
m("R14","Reduction.lean","clrColumn","  if (p.1.rc b).isSome then some p\n  else","  if false then some p\n  else","cleared columns are not skipped","C21 C22 C23")
m("R15","Reduction.lean","clrDimension","(clrLoop D Bd fuel (List.range Bd.size) (s, fun _ => none))","(clrLoop D Bd fuel (List.range (Bd.size - 1)) (s, fun _ => none))","the last column of each dimension is not reduced","C22 C23")
m("R16","Reduction.lean","clrReduce","            (vi.addEntries (ve.map fun x => x.scale m))","            vi","V is not updated in the clearing algorithm","C21")
m("R17","Reduction.lean","clrAll","  | d :: ds, s => (clrDimension D B fuel s d).bind fun s' => clrAll D B fuel ds s'","  | d :: _, s => clrDimension D B fuel s d","only the first dimension is reduced","C22 C25")
# rips
m("P1","Rips.lean","toVecLoop","(toVecLoop b fuel (w / b)).map ((w % b - 1) :: ·)","(toVecLoop b fuel (w / b)).map (· ++ [w % b - 1])","digits returned in the order of the doc comment","C27 C28")
m("P2","Rips.lean","fromIndices","def fromIndices (n_points : Nat) (indices : List Nat) : Option RipsIndex :=\n  let inner := (indices.zipIdx.map fun p => (n_points + 1) ^ p.2 * (p.1 + 1)).sum","def fromIndices (n_points : Nat) (indices : List Nat) : Option RipsIndex :=\n  let inner := (indices.zipIdx.map fun p => n_points ^ p.2 * (p.1 + 1)).sum","base n instead of n + 1","C27 C33")
m("P3","Rips.lean","addCofacets","let newFil := max m fil","let newFil := m","the filtration value forgets the earlier edges","C30")
m("P4","Rips.lean","addCofacets","if max_element = n_vertices - 1 then some bases","if max_element = n_vertices - 2 then some bases","recursion stops one vertex early","C30")
m("P5","Rips.lean","addCofacets","if new_dimension < max_dim then addCofacets","if new_dimension + 1 < max_dim then addCofacets","the top dimension is missing","C30")
m("P6","Rips.lean","parity","def parity (i : Nat) : CF := if i % 2 = 0","def parity (i : Nat) : CF := if i % 3 = 0","wrong signs in the boundary","C28 C29")
m("P7","Rips.lean","CobIter.yield_","it.base.take it.insertion_position ++ [it.next_vertex] ++ it.base.drop it.insertion_position","it.base ++ [it.next_vertex]","the new vertex is appended instead of inserted","C29")
m("P8","Rips.lean","CobIter.new","some ⟨base, 0, n_points - 1, 0⟩","some ⟨base, 1, n_points - 1, 0⟩","cofacets with vertex 0 are missed","C29")
m("P9","Rips.lean","CobIter.seek","if it.next_vertex > it.max_vertex then some none","if it.next_vertex ≥ it.max_vertex then some none","cofacets with the last vertex are missed","C29")
m("P10","Rips.lean","maxPairwiseDistance","((List.range vertices.length).flatMap fun i => (List.range vertices.length).map fun j => (i, j))).bind maxOpt","((List.range vertices.length).flatMap fun i => (List.range vertices.length).map fun _ => (i, 0))).bind maxOpt","only distances to the first vertex count","C30 C33")
m("P11","Rips.lean","buildRipsBases","fun bases => bases.map fun basis => basis.insertionSort tupleLe","fun bases => bases","bases not sorted","C30 C33")
m("P12","Rips.lean","multiElement","if working ≥ (singleDimBasis basis).size then","if working > (singleDimBasis basis).size then","boundary between the dimensions off by one","C39")
m("P13","Rips.lean","CobIter.yield_","    let coeff : CF := if it.insertion_position % 2 = 0","    let coeff : CF := if it.next_vertex % 2 = 0","sign from the vertex instead of the position","C29")
m("P14","Rips.lean","fromIndices64","      chk64 (acc + y)) 0)","      some (acc + y)) 0)","the sum is not checked","C27")
# grpph
m("G1","GrPPH.lean","twoPathTime","some (some (max ab_time bc_time))","some (some (min ab_time bc_time))","min instead of max","C34 C36")
m("G2","GrPPH.lean","twoPathToTwoCell","if abc_time ≥ ac_time then some (some (.directedTriangle","if abc_time > ac_time then some (some (.directedTriangle","strict comparison for conventional triangles","C34 C35")
m("G3","GrPPH.lean","twoPathToTwoCell","if b = primary_bridge then (some (.directedTriangle a b c, ac_time), true)","if b = primary_bridge then (some (.directedTriangle a b c, abc_time), true)","the collapse gets the time of the 2-path","C34 C36")
m("G4","GrPPH.lean","twoPathToTwoCell","            else (some (.longSquare a primary_bridge b c, abc_time), false)\n        | none","            else (some (.longSquare a b primary_bridge c, abc_time), false)\n        | none","bridges of the square swapped","C34")
m("G5","GrPPH.lean","longSquaresWithPrimaryBridge","if aic_time ≥ ac_time then none else","if aic_time > ac_time then none else","square at the time of the arrow kept","C34")
m("G6","GrPPH.lean","twoPathToAllTwoCells","squares.map fun x => (NonZeroCoeff.neg NonZeroCoeff.one, x.1, x.2)","squares.map fun x => (NonZeroCoeff.one, x.1, x.2)","sign of the squares","C34 C35")
m("G7","GrPPH.lean","triangleBaseCoboundary","if sbt_time < st_time then none","if sbt_time ≤ st_time then none","triangle filled at the time of its base is missed","C34")
m("G8","GrPPH.lean","triangleBaseCoboundary","        some (bridge_collapse_col ++ conventional_triangles)","        some conventional_triangles","the collapse is missing from the column of the base","C34 C35")
m("G9","GrPPH.lean","nodeTotalCoboundary","if (j, s) ∈ edge_set then some (some","if (s, j) ∈ edge_set then some (some","incoming edges looked up in the wrong direction","C34")
m("G10","GrPPH.lean","bridgeStep","if time ≥ st_time then map else","if time > st_time then map else","bridge recorded for simultaneous arrows","C35")
m("G11","GrPPH.lean","minPair","if toLex y < toLex x then y else x","if toLex x < toLex y then y else x","max instead of min","C35")
m("G12","GrPPH.lean","buildGrpphBasis","      if e ∈ edge_set then some none\n","      if e.1 = e.2 then some none\n","edges of the graph occur twice in the basis","C37")
m("G13","GrPPH.lean","grpphFiltrationValue","  | .edge s t => if (s, t) ∈ edge_set then some 0 else (et s t).bind id","  | .edge s t => (et s t).bind id","no grounding","C36 C43")
m("G14","GrPPH.lean","grpphBoundaryColumn","  | .twoCell (.doubleEdge a b) => [(NonZeroCoeff.one, .edge a b), (NonZeroCoeff.one, .edge b a)]","  | .twoCell (.doubleEdge a b) => [(NonZeroCoeff.one, .edge a b), (NonZeroCoeff.neg NonZeroCoeff.one, .edge b a)]","sign in the boundary of a double edge","C34 C35 C38")
m("G15","GrPPH.lean","buildFiltration","if i = j then none else sp i j","sp i j","self loops at time 0 in the filtration","C41 C43")
m("G16","GrPPH.lean","reportPairings","if death_f = birth_f then some pairings else pushBar","if death_f < birth_f then some pairings else pushBar","bars of length zero reported","C43")
m("G17","GrPPH.lean","reportPairings","pushBar pairings (OrderDual.ofDual p.2).dimension (birth_f, death_f)","pushBar pairings (OrderDual.ofDual p.2).dimension (death_f, birth_f)","birth and death swapped in the report","C43")
m("G18","GrPPH.lean","grpphDiagram","fuel [0, 1])","fuel [1, 0])","dimensions reduced in the wrong order","C43")
m("G19","GrPPH.lean","grpphDiagram","fuel [0, 1])","fuel [1])","degree 0 not reduced","C43")
m("G20","GrPPH.lean","involutionBasis","if (OrderDual.ofDual p.2).dimension = 1 then","if (OrderDual.ofDual p.2).dimension = 0 then","deaths of the wrong degree","C38")
m("G21","GrPPH.lean","involutionBasis","fun l => l.insertionSort cellTupleLe","fun l => l","the involution basis is not sorted","C38")
m("G22","GrPPH.lean","readReps","    if death_f = birth_f then some none\n    else (r.buildBhcol p.2)","    if death_f = birth_f then some none\n    else (r.buildBhcol p.1)","representative read at the birth cell","C38")
m("G23","GrPPH.lean","asU16","def asU16 (x : Nat) : Nat := x % 65536","def asU16 (x : Nat) : Nat := x % 256","truncation to a byte","C41")
m("G24","GrPPH.lean","longSquaresWithPrimaryBridge","((((List.range n_vertices).filter (· ≠ a)).filter (· ≠ b)).filter (· ≠ c))","(((List.range n_vertices).filter (· ≠ a)).filter (· ≠ c))","the degenerate square over the primary bridge itself is produced","C34")
m("G25","GrPPH.lean","edgeTotalCoboundary","((List.range n_vertices).filter (· ≠ t))).map fun part_3","((List.range n_vertices).filter (· ≠ s))).map fun part_3","wrong vertex excluded: double edges missed","C34")
m("G26","GrPPH.lean","PathHomCell.dimension","  | .twoCell _ => 2","  | .twoCell _ => 1","dimension of 2-cells","C43 C38")
# rips main, 64 bit
m("N1","RipsMain.lean","ripsMaxDim","arg.getD 1","arg.getD 2","default maximum dimension 2","C52")
m("N2","RipsMain.lean","ripsSizes","(dim, b.size)) (List.range (max_dim + 1))","(dim, b.size)) (List.range max_dim)","the size of the top dimension is not printed","C52")
m("N3","RipsMain.lean","ripsEssential","(dim, idx, OrderDual.ofDual f_val)","(dim + 1, idx, OrderDual.ofDual f_val)","dimension of infinite bars off by one","C52")
m("N4","RipsMain.lean","ripsPairings","(ripsDimension n_points (OrderDual.ofDual tup.2)).bind","(ripsDimension n_points (OrderDual.ofDual tup.1)).bind","dimension of the death instead of the birth","C52")
m("N5","RipsMain.lean","ripsPairings","some (dim, (tup.2, tup.1), OrderDual.ofDual birth_f, OrderDual.ofDual death_f)","some (dim, (tup.2, tup.1), OrderDual.ofDual death_f, OrderDual.ofDual birth_f)","birth and death values swapped","C52")
m("N6","RipsMain.lean","ripsPairings","if long (OrderDual.ofDual birth_f) (OrderDual.ofDual death_f) then","if !long (OrderDual.ofDual birth_f) (OrderDual.ofDual death_f) then","length filter inverted","C52")
m("N7","RipsMain.lean","ripsMain","fuel (List.range (max_dim + 1))).bind fun r","fuel (List.range max_dim)).bind fun r","the top dimension is not reduced","C52")
m("N8","RipsMain.lean","ripsMain","(ripsEssential d.1.reverse.filt distances.length (enumE r.2.essential))","(ripsEssential d.1.reverse.filt distances.length [])","infinite bars not printed","C52")
m("N9","RipsMain.lean","ripsPairings","some (dim, (tup.2, tup.1), OrderDual","some (dim, (tup.1, tup.2), OrderDual","the simplices of a pair are printed in the wrong order","C52")
m("N10","Rips.lean","chk64","if x < 2 ^ 64 then","if x < 2 ^ 63 then","signed bound in the overflow check","C27 C57")
m("N11","Rips.lean","pow64","  | 0 => some 1","  | 0 => some b","power off by one","C27 C57")
m("N12","Rips.lean","fromIndicesWrapping","(n_points + 1) ^ p.2 * (p.1 + 1)).sum % 2 ^ 64","(n_points + 1) ^ p.2 * (p.1 + 1)).sum % 2 ^ 32","release build on a 32-bit machine","C27 C57")
m("N13","Rips64.lean","addCofacetsW","((fi n_vertices (simplex ++ [v])).bind id)","((fi n_vertices (v :: simplex)).bind id)","vertex in front","C57")
m("N14","Rips64.lean","CobIter.yieldW","(fi (it.max_vertex + 1) new_simplex)","(fi it.max_vertex new_simplex)","wrong number of points in the iterator","C57")
m("N15","Rips64.lean","ripsBoundaryColumnW","fun p => p.2 ≠ i).map","fun p => p.2 ≠ i + 1).map","the face opposite to the wrong vertex","C57")
m("N16","Rips64.lean","buildRipsBasesW","(pushAt bases 0 (0, index))","(pushAt bases 1 (0, index))","vertices in dimension 1","C57")
# both wrappers forward the override
m("N17","Matrices.lean","FOracle.withBasis, FOracle.ref","FOracle CF Col Row F := M.toOracle.withFilt M.filt\n\n","FOracle CF Col Row F := M\n\n","&M and MatrixWithBasis forward column_with_filtration, which exposes the defect of RipsCoboundary","C32 C33 C52",count=None)
# rips more
m("N18","Rips.lean","ripsDimension","else some (l.length - 1)","else some l.length","dimension is the number of vertices","C27 C52")
m("N19","Rips.lean","ripsBoundaryColumn","(fromIndices n_points ((index_as_vec.zipIdx.filter fun p => p.2 ≠ i)","(fromIndices n_points ((index_as_vec.zipIdx.filter fun p => p.2 ≠ 0)","always the first vertex removed","C28 C33")
m("N20","Rips.lean","buildRipsCoboundaryMatrix","((ripsCoboundary CF distances).withBasis, multiDimBasis bases)","((ripsCoboundary CF distances).withBasis, multiDimBasis bases.reverse)","bases in the wrong order","C33 C52 C45")
m("N21","Rips.lean","maxOpt","some (l.foldl max a)","some (l.foldl min a)","minimum of the distances","C30 C33 C45")
m("N22","Rips.lean","multiDimBasis","inDim d := (bases[d]?)","inDim d := (bases[d + 1]?)","in_dimension off by one","C39 C33")
m("N23","Rips.lean","singleDimBasis","(basis[i]?).map Prod.snd","(basis[basis.length - 1 - i]?).map Prod.snd","a single dimension is enumerated backwards","C39 C33")
# grpph, C46-C50, C55, C56
m("N24","GrPPH.lean","buildEdgeSet","(asU16 e.1, asU16 e.2.1)","(asU16 e.2.1, asU16 e.1)","edges reversed in the edge set","C41 C46 C47")
m("N25","GrPPH.lean","pushBar","(· ++ [x])","(fun _ => [x])","only the last bar of each degree is kept","C43 C46 C55")
m("N26","GrPPH.lean","reportEssential","pushBar essential (OrderDual.ofDual idx).dimension f_val) [[], []]","pushBar essential 0 f_val) [[], []]","all infinite bars reported in degree 0","C43 C46 C48")
m("N27","GrPPH.lean","buildFiltration","if i = j then none else sp i j","if i = j then none else sp j i","transposed shortest path matrix","C41 C43 C49 C55")
m("N28","GrPPH.lean","grpph","(reportPairings r.1.filt (enumP r.2.pairings)).map fun pairings => (essential, pairings)","(reportPairings r.1.filt (enumP ∅)).map fun pairings => (essential, pairings)","finite bars are lost","C43 C47 C55 C56")
m("N29","GrPPH.lean","grpphDiagram","(buildGrpphCoboundary CF (vecEdgeTime (buildFiltration n_vertices sp)) edge_set (asU16 n_vertices))","(buildGrpphCoboundary CF (vecEdgeTime (buildFiltration n_vertices sp)) edge_set (asU16 (n_vertices - 1)))","the last vertex is forgotten","C43 C46 C55")
# series O: definitions not mutated before, and corner cases outside the main hypotheses
m("O2","Columns.lean","BHCol.addEntries","es.foldl addEntry h\n","es.tail.foldl addEntry h\n","the first added entry is lost","C04 C05 C07")
m("O3","Columns.lean","BHCol.addTuples","addEntries h (ts.map Entry.ofTuple)","addEntries empty (ts.map Entry.ofTuple)","add_tuples replaces the column","C05")
m("O4","Columns.lean","BHCol.peekPivot","StdHeap.peek h\n","none\n","peek_pivot never finds a pivot","C06")
m("O5","Columns.lean","BHCol.popPivot","  | some (first, h') => popLoop h' first.row (some first.coeff) first.filt","  | some (first, h') => popLoop h first.row (some first.coeff) first.filt","pop_pivot peeks the first entry but does not pop it","C04 C05")
m("O6","Columns.lean","BHCol.drainFuel","| (some e, h') => (drainFuel n h').map fun p => (e :: p.1, p.2)","| (some e, h') => (drainFuel n h').map fun p => (p.1 ++ [e], p.2)","drain_sorted in ascending order","C05")
m("O8","Columns.lean","BHCol.addTuple","addEntry h (Entry.ofTuple t)\n","h\n","add_tuple does nothing","C05 C17")
m("O9","Fields.lean","z3Inv","def z3Inv : Nat → Option Nat\n  | 1 => some 1\n  | 2 => some 2","def z3Inv : Nat → Option Nat\n  | 1 => some 1\n  | 2 => some 1","wrong inverse of 2 in Z3","C01")
m("O10","Fields.lean","z5Inv","  | 2 => some 3\n  | 3 => some 2\n  | 4 => some 4","  | 2 => some 2\n  | 3 => some 3\n  | 4 => some 4","wrong table for Z5","C01")
m("O11","Fields.lean","z7Inv","  | 4 => some 2\n  | 5 => some 3\n  | 6 => some 6","  | 4 => some 2\n  | 5 => some 3","6 is missing in the table for Z7 (panic)","C01")
m("O12","Fields.lean","z11Inv","  | 7 => some 8\n  | 8 => some 7\n  | 9 => some 5\n  | 10","  | 7 => some 7\n  | 8 => some 8\n  | 9 => some 5\n  | 10","7 and 8 swapped in Z11","C01")
m("O13","Fields.lean","zpInv","  | 11 => z11Inv\n  | 13 => z13Inv","  | 11 => z13Inv\n  | 13 => z11Inv","tables of Z11 and Z13 swapped","C01")
m("O14","Fields.lean","u8Max","def u8Max : Nat := 255","def u8Max : Nat := 65535","computation in u16","C02")
m("O15","Fields.lean","Q.neg","⟨-a.num, a.den⟩","⟨a.num, a.den⟩","additive inverse is the identity","C03")
m("O16","Fields.lean","Q.reduce","⟨q.num.tdiv (g : Int), q.den / g⟩","⟨q.num.tdiv (g : Int), q.den⟩","denominator not reduced","C03")
m("O17","Q64.lean","inI","x < 9223372036854775808","x ≤ 9223372036854775808","isize bound off by one","C03")
m("O18","Q64.lean","inU","x < 18446744073709551616","x < 4294967296","usize of 32 bits","C03")
m("O19","Q64.lean","neg","let n ← ckI (-a.num)\n","let n ← some (-a.num)\n","no overflow check in additive_inverse","C03")
m("O20","Q64.lean","mul","let d ← ckU (a.den * b.den)\n","let d ← ckU (a.den + b.den)\n","denominators added","C03")
m("O21","Q64.lean","add","let fa ← castI (lcd / a.den)","let fa ← castI (lcd / b.den)","wrong cofactor","C03")
m("O23","Matrices.lean","flatMapOpt","(flatMapOpt f l).map (b ++ ·)","(flatMapOpt f l).map (· ++ b)","flat_map in the opposite order","C08 C34")
m("O24","Matrices.lean","mapOpt","(f a).bind fun b => (mapOpt f l).map (b :: ·)","(f a).bind fun b => (mapOpt f l).map (fun r => b :: r.tail)","map skips items","C32 C30")
m("O25","Matrices.lean","FOracle.unreverse","  column c := (M.column (OrderDual.toDual c)).map fun l => l.map fun t => (t.1, OrderDual.ofDual t.2)","  column c := (M.column (OrderDual.toDual c)).map fun l => (l.map fun t => (t.1, OrderDual.ofDual t.2)).reverse","unreverse lists the column backwards","C13")
m("O26","Matrices.lean","FOracle.unreverse","  filt r := (M.filt (OrderDual.toDual r)).map OrderDual.ofDual\n","  filt _ := none\n","filtration of unreverse panics","C13")
m("O27","Matrices.lean","FOracle.buildBhcol","(M.colF c).map fun es => BHCol.empty.addEntries es","(M.colF c).map fun es => BHCol.empty.addEntries (es ++ es)","build_bhcol adds the column twice","C07 C10 C18")
m("O28","Matrices.lean","vecBasis","element i := l[i]?\n","element i := l[i - 1]?\n","Vec basis off by one","C40")
m("O29","Matrices.lean","standardBasis","  element i := some i\n","  element i := some (n - 1 - i)\n","standard basis backwards","C60")
m("O30","Matrices.lean","Basis.unreverse","(B.element (B.size - 1 - i)).map OrderDual.ofDual","(B.element i).map OrderDual.ofDual","unreverse does not turn the basis around","C14")
m("O31","Matrices.lean","SplitBasis.reverse","inDim d := (B.inDim d).map Basis.reverse","inDim d := (B.inDim (d + 1)).map Basis.reverse","in_dimension of a reversed basis off by one","C14 C33")
m("O32","Matrices.lean","SplitBasis.unreverse","inDim d := (B.inDim d).map Basis.unreverse","inDim _ := (B.inDim 0).map Basis.unreverse","in_dimension of an unreversed basis is always dimension 0","C13")
m("O33","Matrices.lean","mapInsert","if x = k then some v else m x","if x = k ∧ (m x).isNone then some v else m x","insert does not overwrite","C15")
m("O34","Matrices.lean","lookupFrom","lookupFrom B is (mapInsert m e i)","lookupFrom B is (mapInsert m e (i + 1))","reverse lookup off by one","C15")
m("O35","Matrices.lean","vecVecMatrix","column i := columns[i]?\n","column i := some (columns.getD i [])\n","out-of-range columns are empty instead of a panic","C60")
m("O37","Matrices.lean","vecVecAllOne","(NonZeroCoeff.one, row)","(NonZeroCoeff.neg NonZeroCoeff.one, row)","all coefficients minus one","C60")
m("O38","Matrices.lean","CacheState.borrowed","s.iters.any fun it => it.inner.isSome","s.iters.all fun it => it.inner.isSome","borrowed only if all iterators are alive","C12")
m("O39","Matrices.lean","CacheIter.dropIt","{ it with inner := none, dropped := true }","{ it with dropped := true }","dropping does not release the borrow","C12")
m("O40","Matrices.lean","CacheState.step","s.iters.modify i fun it => it.next.2","s.iters.modify 0 fun it => it.next.2","advances the wrong iterator","C11")
m("O41","Matrices.lean","FOracle.subMatrix","M.toOracle.withFilt M.filt\n\n/-- `ReverseMatrix`","Oracle.withFilt ⟨fun _ => some []⟩ M.filt\n\n/-- `ReverseMatrix`","sub matrix has zero columns","C40")
m("O42","Matrices.lean","Oracle.withTrivial","M.withFilt fun _ => some ()","Oracle.withFilt ⟨fun c => (M.column c).map List.reverse⟩ fun _ => some ()","trivial filtration reverses columns","C40")
m("O43","Matrices.lean","mapVecMatrix","  column := columns\nend","  column c := some ((columns c).getD [])\nend","missing columns are zero instead of a panic","C16 C17",)
m("O44","Reduction.lean","stdLoop","(stdColumn D (fuel i) s b).bind fun s' => stdLoop D B fuel is s'","(stdColumn D (fuel i) s b).bind fun s' => stdLoop D B fuel is ⟨s'.v, s.low⟩","pivots are forgotten between columns","C17 C18")
m("O45","Reduction.lean","standardAlgo","stdLoop D B fuel (List.range B.size)","stdLoop D B fuel (List.range (B.size - 1))","the last column is not reduced","C17")
m("O46","Reduction.lean","clrLoop","(clrColumn D fuel p b).bind fun p' => clrLoop D B fuel is p'","(clrColumn D fuel p b).bind fun p' => clrLoop D B fuel is (p'.1, p.2)","pivots are forgotten between columns (clearing)","C21 C22")
m("O47","Reduction.lean","buildWithDiagram","(s.rc, s.diagram)","(s.rc, ⟨s.diagram.essential, ∅⟩)","pairings are lost","C22 C25")
m("O48","Reduction.lean","clrSave","mapInsert s.rc e.row (.cleared b)","mapInsert s.rc e.row (.cleared e.row)","cleared column points to itself","C21 C24")
m("O49","Reduction.lean","standardAlgoWithDiagram","(readOffDiagram D.ref B v reverseOrder)","(readOffDiagram D.ref B v (!reverseOrder))","flag inverted","C19")
m("O50","Rips.lean","distAt","(distances[v]?).bind fun row => row[w]?","(distances[w]?).bind fun row => row[v]?","transposed distance matrix (equal for symmetric matrices)","C30 C31 C32")
m("O51","Rips.lean","pushAt","(bases.modify d (· ++ [x]))","(bases.modify d (x :: ·))","pushes to the front (no effect after sorting)","C30",equivalent=True)
m("O52","Rips.lean","tupleLe","toLex a ≤ toLex b\n\ninstance : DecidableRel (tupleLe (F := F)) := fun a b => inferInstanceAs (Decidable (toLex a ≤ toLex b))","a.1 ≤ b.1\n\ninstance : DecidableRel (tupleLe (F := F)) := fun a b => inferInstanceAs (Decidable (a.1 ≤ b.1))","bases sorted by filtration value only","C30 C33")
m("O53","Rips.lean","cobItems","(CobIter.collect (n_points + 1))","(CobIter.collect n_points)","not enough fuel in the model: some columns do not terminate","C29")
m("O54","Rips.lean","ripsCoboundaryColF","⟨max max_pd max_to_inserted, t.2.1, t.1⟩","⟨max_to_inserted, t.2.1, t.1⟩","override ignores the distances of the old vertices","C32")
m("O55","Rips.lean","buildRipsBoundaryMatrix","((ripsBoundary CF distances).withBasis, multiDimBasis bases)","((ripsBoundary CF distances).withBasis, multiDimBasis (bases.drop 1))","dimension 0 is missing","C33")
m("O56","Rips.lean","ripsFiltrationValue","maxPairwiseDistance as_vec distances","maxPairwiseDistance (as_vec.drop 1) distances","first vertex ignored","C30 C33")
m("O57","Rips64.lean","fromIndicesExact","some (fromIndices n_points indices)","some (fromIndicesWrapping n_points indices)","exact arithmetic replaced by wrapping","C57")
m("O58","Rips64.lean","ripsMainW","(List.range (max_dim + 1))).bind fun r","(List.range max_dim)).bind fun r","top dimension not reduced (64-bit version)","C57")
m("O59","Rips64.lean","cobItemsW","(CobIter.collectW fi (n_points + 1))","(CobIter.collectW fromIndicesExact (n_points + 1))","no overflow in the coboundary (64-bit version)","C57")
m("O60","Rips64.lean","buildRipsBoundaryMatrixW","(ripsBoundaryW fi CF distances).withBasis","(ripsBoundaryW fromIndicesExact CF distances).withBasis","no overflow in the boundary (64-bit version)","C57")
m("O61","Rips64.lean","ripsCoboundaryColFW","⟨max max_pd max_to_inserted, t.2.1, t.1⟩","⟨max_pd, t.2.1, t.1⟩","override wrong (64-bit version)","C57")
m("O62","GrPPH.lean","filterMapOpt","    | none => r\n    | some b => b :: r","    | none => []\n    | some b => b :: r","filter_map stops at the first None","C34 C37")
m("O63","GrPPH.lean","vecEdgeTime","(filtration[s]?).bind fun row => row[t]?","(filtration[t]?).bind fun row => row[s]?","transposed filtration","C41 C43 C59")
m("O64","GrPPH.lean","mapEdgeTime","some (filtration (s, t))","some (filtration (t, s))","transposed filtration (map)","C59")
m("O65","GrPPH.lean","buildPrimaryBridgeMap","(List.range n_vertices).flatMap fun s => (List.range n_vertices).map fun t => (s, t)).foldlM","(List.range n_vertices).flatMap fun s => (List.range s).map fun t => (s, t)).foldlM","bridges only for s > t","C35")
m("O66","GrPPH.lean","cellTupleLe","toLex a ≤ toLex b\n\ninstance : DecidableRel (cellTupleLe (F := F)) := fun a b => inferInstanceAs (Decidable (toLex a ≤ toLex b))","a.1 ≤ b.1\n\ninstance : DecidableRel (cellTupleLe (F := F)) := fun a b => inferInstanceAs (Decidable (a.1 ≤ b.1))","bases sorted by time only","C37 C38")
m("O67","GrPPH.lean","grpphCoboundary","    | .edge s t => (edgeTotalCoboundary CF bm et n_vertices s t).map fun l => l.map fun x => ⟨x.2.2, PathHomCell.twoCell x.2.1, x.1⟩","    | .edge s t => (edgeTotalCoboundary CF bm et n_vertices t s).map fun l => l.map fun x => ⟨x.2.2, PathHomCell.twoCell x.2.1, x.1⟩","override uses the opposite edge","C36 C32")
m("O68","GrPPH.lean","grpphCoboundary","    | .edge s t => (edgeTotalCoboundary CF bm et n_vertices s t).map fun l => l.map fun x => (x.1, PathHomCell.twoCell x.2.1)\n    | .twoCell _ => none","    | .edge s t => (edgeTotalCoboundary CF bm et n_vertices s t).map fun l => l.map fun x => (x.1, PathHomCell.twoCell x.2.1)\n    | .twoCell _ => some []","coboundary of a 2-cell is zero instead of a panic","C35")
m("O69","GrPPH.lean","buildGrpphBoundary","singleDimBasis basis)","singleDimBasis basis.reverse)","involution basis backwards","C38")
m("O70","GrPPH.lean","grpphRun","d.2.reverse fuel [0, 1])","d.2.reverse fuel [0])","degree 1 is not reduced","C43 C59")
m("O71","GrPPH.lean","involutionReps","(standardAlgoWithDiagram d.1.ref d.2 fuel false)","(standardAlgoWithDiagram d.1.ref d.2 fuel true)","reverse order in the involution (pairings do not depend on it)","C38",equivalent=True)
m("O72","GrPPH.lean","involutionReps","(productF d.1.ref (mapVecMatrix r.1))","d.1.ref","representatives are columns of D instead of R","C38 C50")
m("O73","GrPPH.lean","grpphWithInvolution","(reportEssential r.1.filt (enumE r.2.essential)).bind fun essential =>\n    (reportPairings r.1.filt (enumP r.2.pairings)).bind fun pairings =>","(reportEssential r.1.filt (enumE ∅)).bind fun essential =>\n    (reportPairings r.1.filt (enumP r.2.pairings)).bind fun pairings =>","grpph_with_involution loses the infinite bars","C38 C49 C50")
m("O74","GrPPH.lean","PathHomCell.key","  | .node s => [0, s]\n  | .edge s t => [1, s, t]","  | .node s => [1, s]\n  | .edge s t => [0, s, t]","order of the variants changed","C37 C38")
m("O75","GrPPH.lean","PathHom2Cell.key","  | .longSquare a b c d => [2, a, b, c, d]","  | .longSquare a b c d => [2, a, c, b, d]","order of the fields of a long square changed (any tie-breaking order gives the same barcode)","C37",equivalent=True)
m("O76","GrPPHMain.lean","countPairings","if death_f = birth_f then some count else some (count + 1)","some (count + 1)","pairs of length zero counted","C59")
m("O77","GrPPHMain.lean","printEssential","(filt (OrderDual.ofDual idx)).map fun _ => ()","(none : Option Unit)","printing an essential class panics","C59")
m("O78","GrPPHMain.lean","grpphDemo","(count, r.2.essential.card)","(count, r.2.pairings.card)","wrong set counted","C59")
m("O79","GrPPHMain.lean","completeAsserts","n * (n - 1) - n + 1 ∧","n * (n - 1) - n ∧","wrong number asserted","C59")
m("O80","GrPPHMain.lean","completeAsserts","if n < 1 then none else if n * (n - 1) < n then none else","if n < 1 then none else","no underflow check","C59")
m("O81","GrPPHMain.lean","completeEdges","e.1 ≠ e.2).map","e.1 < e.2).map","edges in one direction only","C59")
m("O82","GrPPHMain.lean","mainEdgeSet","fun e => e.1 ≠ e.2).dedup","fun e => e.1 < e.2).dedup","edge set in one direction only","C59")
m("O83","GrPPHMain.lean","mapOfInserts","mapInsert m x.1 x.2","if (m x.1).isSome then m else mapInsert m x.1 x.2","first insert wins (keys are distinct here)","C59",equivalent=True)
m("O84","GrPPHMain.lean","completeMap","(List.range n).filter fun j => i ≠ j).map fun j => ((i, j), w)","(List.range n).filter fun j => i < j).map fun j => ((i, j), w)","half of the filtration","C59")
m("O85","GrPPHMain.lean","cycleMap","(List.range' 1 (n - 1))","(List.range' 1 n)","self-loops in the filtration of the cycle","C59")
m("O86","GrPPHMain.lean","cycleEdgeSet","(i, (i + 1) % n)","((i + 1) % n, i)","cycle in the opposite direction","C59")
m("O87","GrPPHMain.lean","cycleAsserts","r.1 = 1 ∧ r.2 = 1","r.1 = 1 ∧ r.2 = 2","wrong number asserted","C59")
m("O88","RipsMain.lean","ripsPairings","(filt tup.2).bind fun birth_f => (filt tup.1).map fun death_f","(filt tup.2).bind fun birth_f => (filt tup.2).map fun death_f","death read at the birth simplex","C52")
m("O32b","Matrices.lean","SplitBasis.unreverse","inDim d := (B.inDim d).map Basis.unreverse","inDim _ := (B.inDim 0).map Basis.unreverse","in_dimension of an unreversed basis is always dimension 0","C14",tightened=['C14_unreverse_element', 'C14_round_trip'])
m("O57b","Rips64.lean","fromIndicesExact","some (fromIndices n_points indices)","some (fromIndicesWrapping n_points indices)","exact arithmetic replaced by wrapping","C57",tightened=['C57_exact'])
m("O61b","Rips64.lean","ripsCoboundaryColFW","⟨max max_pd max_to_inserted, t.2.1, t.1⟩","⟨max_pd, t.2.1, t.1⟩","override wrong (64-bit version)","C57",tightened=['C57_exact'])
m("O74b","GrPPH.lean","PathHomCell.key","  | .node s => [0, s]\n  | .edge s t => [1, s, t]","  | .node s => [1, s]\n  | .edge s t => [0, s, t]","order of the variants changed","C37",tightened=['C37_cell_order'])
m("O75b","GrPPH.lean","PathHom2Cell.key","  | .longSquare a b c d => [2, a, b, c, d]","  | .longSquare a b c d => [2, a, c, b, d]","order of the fields of a long square changed","C37",tightened=["C37_cell_order"])
m("O17b","Q64.lean","inI","x < 9223372036854775808","x ≤ 9223372036854775808","isize bound off by one","C03",tightened=['C03_overflow'])
m("O40b","Matrices.lean","CacheState.step","s.iters.modify i fun it => it.next.2","s.iters.modify 0 fun it => it.next.2","advances the wrong iterator","C11",tightened=['C11_cache_step'])
m("O50b","Rips.lean","distAt","(distances[v]?).bind fun row => row[w]?","(distances[w]?).bind fun row => row[v]?","transposed distance matrix (equal for symmetric matrices)","C30 C31 C32",tightened=['C30_bases', 'C30_filtration_monotone'])
# series P: Dijkstra, the array heap, f64
m("PD1","Dijkstra.lean","finiteEdges","edges.filter fun e => e.2.2 < ⊤","edges.filter fun e => e.2.2 ≤ ⊤","infinite weights are put into the graph","C61")
m("PD2","Dijkstra.lean","minScored","⟨OrderDual.toDual score, (), node⟩","⟨OrderDual.toDual (0 : F), (), node⟩","the heap ignores the scores","C61")
m("PD3","Dijkstra.lean","relax","if next_score < old then s' else s","if old < next_score then s' else s","comparison reversed: scores increase","C61")
m("PD4","Dijkstra.lean","relax","if next_score < old then s' else s","s'","a longer walk overwrites a shorter one","C61")
m("PD5","Dijkstra.lean","relax","if next_score < old then s' else s","s","a score is never improved","C61")
m("PD6","Dijkstra.lean","relax","{ s with scores := mapInsert s.scores e.2.1 next_score, heap := StdHeap.push s.heap (minScored next_score e.2.1) }","{ s with scores := mapInsert s.scores e.2.1 next_score }","node is not pushed","C61")
m("PD7","Dijkstra.lean","relax","let next_score := add node_score e.2.2","let next_score := max node_score e.2.2","bottleneck instead of length","C61")
m("PD8","Dijkstra.lean","relax","  if s.visited e.2.1 then s\n  else","  if s.visited e.1 then s\n  else","visited check on the source","C61")
m("PD9","Dijkstra.lean","dijLoop","      if s.visited e.coeff then dijLoop add out fuel { s with heap := h }\n","      if s.visited e.coeff then some s.scores\n","stops at the first stale heap entry","C61")
m("PD10","Dijkstra.lean","dijLoop","{ s' with visited := fun v => if v = e.coeff then true else s'.visited v }","s'","nodes are never marked as visited","C61")
m("PD11","Dijkstra.lean","dijkstra","mapInsert (fun _ => none) start 0, StdHeap","fun _ => none, StdHeap","the start has no score","C61")
m("PD12","Dijkstra.lean","dijkstraTables","(List.range n_vertices)","(List.range (n_vertices - 1))","the last source is skipped","C61")
m("PD13","Dijkstra.lean","tableLookup","(tables[i]?).bind fun scores => scores j","(tables[j]?).bind fun scores => scores i","table transposed","C61")
m("PD14","Dijkstra.lean","grpphEdges","(order (buildEdgeSet edges)) fuel\n\n/-- `grpph_with","(order (buildEdgeSet (finiteEdges edges))) fuel\n\n/-- `grpph_with","edges of infinite weight are left out of the edge set","C61 C62")
m("P15","Dijkstra.lean","grpphWithInvolutionEdges","grpphWithInvolution CF enumE enumP enumB n_vertices (tableLookup tables) (order (buildEdgeSet edges)) fuel fuelB","grpphWithInvolution CF enumE enumP enumB n_vertices (tableLookup tables) (order (buildEdgeSet (finiteEdges edges))) fuel fuelB","edges of infinite weight are left out of the edge set (with involution)","C61")
m("P16","Dijkstra.lean","grpphMainEdges","(List.range n)).bind","(List.range (n - 1))).bind","example program: last source skipped","C61")
m("P17","Dijkstra.lean","dijLoop","foldl (relax add (OrderDual.ofDual e.filt))","foldl (relax add 0)","score of the current node dropped","C61")
m("P18","BinaryHeap.lean","siftUp","let parent := (pos - 1) / 2\n      have hp : parent < a.size := by omega","let parent := pos / 2\n      have hp : parent < a.size := by omega","wrong parent","C63")
m("P19","BinaryHeap.lean","siftUp","if key a[pos] ≤ key a[parent] then a else","if key a[parent] ≤ key a[pos] then a else","min-heap","C63")
m("P20","BinaryHeap.lean","siftUp","siftUp fuel (a.swap pos parent) parent","(a.swap pos parent)","only one step up","C63")
m("P21","BinaryHeap.lean","push","siftUp key a.size (a.push x) a.size","a.push x","no sift up after push","C63")
m("P22","BinaryHeap.lean","siftDown","if key a[child] ≤ key a[child + 1] then siftDown fuel (a.swap pos (child + 1)) (child + 1)","if key a[child + 1] ≤ key a[child] then siftDown fuel (a.swap pos (child + 1)) (child + 1)","smaller child moves up","C63")
m("P23","BinaryHeap.lean","siftDown","else if h : child + 1 = a.size then (a.swap pos child, child)","else if h : child + 1 = a.size then (a, pos)","single last child is ignored","C63")
m("P24","BinaryHeap.lean","siftDownToBottom","siftUp key p.2 p.1 p.2","p.1","no sift up after moving to the bottom","C63")
m("P25","BinaryHeap.lean","pop","some (b[0], siftDownToBottom key (b.set 0 last))","some (b[0], b.set 0 last)","no sift down after pop","C63")
m("P26","BinaryHeap.lean","pop","some (b[0], siftDownToBottom key (b.set 0 last))","some (last, siftDownToBottom key b)","pop returns the last element","C63")
m("P27","BinaryHeap.lean","peek","a[0]?","a.back?","peek looks at the last element","C63")
m("P28","BinaryHeap.lean","siftDown","if key a[child] ≤ key a[child + 1] then","if key a[child] < key a[child + 1] then","the left one of two equal children moves up (still a heap)","C63",equivalent=True)
m("P29","Float64.lean","roundNat","if 2 ^ e < 2 * r ∨ (2 * r = 2 ^ e ∧ q % 2 = 1) then q + 1 else q","q","rounding towards zero","C65")
m("P30","Float64.lean","roundNat","(2 * r = 2 ^ e ∧ q % 2 = 1)","(2 * r = 2 ^ e ∧ q % 2 = 0)","ties to odd","C65")
m("P31","Float64.lean","roundNat","Nat.log2 n - 52","Nat.log2 n - 51","52 bits of precision","C65")
m("P32","Float64.lean","roundF64","if roundNat n < overflowF64 then WithTop.some (roundNat n) else ⊤","if n < overflowF64 then WithTop.some (roundNat n) else ⊤","overflow decided before rounding","C65")
m("P33","Float64.lean","addF64","  | _, _ => ⊤","  | some x, none => WithTop.some x\n  | _, _ => ⊤","x + infinity = x","C65")
m("P34","Float64.lean","addF64","roundF64 (x + y)","roundF64 (max x y)","maximum instead of sum","C65")
# more of the older definitions
m("P35","Reduction.lean","standardAlgo","stdLoop D B fuel (List.range B.size)","stdLoop D B fuel (List.range B.size).reverse","columns reduced from right to left","C17 C22")
m("P36","Rips.lean","addCofacets","let newFil := max m fil","let newFil := m","filtration of the face is forgotten","C30")

# --- coefficient panics (C67) and builds (C68)
def k(i,d,f,edit,old,new,claims,**kw): M.append(dict(id=i,**{"def":d},file=f,edit=edit,old=old,new=new,claims=claims,**kw))
k("CK1","Ck.addOpt","Checked.lean","adding to a zero sum gives zero","| none => some (some a)\n  | some b => K.add a b","| none => some none\n  | some b => K.add a b",["C67"])
k("CK2","Ck.popLoop","Checked.lean","entries with equal row are not summed: the old sum is dropped","else (addOpt K next.coeff ws).bind fun s => popLoop K h' wi s wf","else (addOpt K next.coeff none).bind fun s => popLoop K h' wi s wf",["C67"])
k("CK4","Ck.readLoop","Checked.lean","pairing read from the second pivot","(popPivot K p.2).bind fun _ =>\n    readLoop K R B is <| match p.1 with","(popPivot K p.2).bind fun p =>\n    readLoop K R B is <| match p.1 with",["C67"])
k("CK5","Ck.stdReduce","Checked.lean","multiplier without the inverse","(K.neg e.coeff).bind fun n => (K.inv jc).bind fun ji => (K.mul n ji).bind fun m =>\n        let vMatrix := (mapVecMatrix v)","(K.neg e.coeff).bind fun n => (K.inv jc).bind fun ji => (K.mul n jc).bind fun m =>\n        let vMatrix := (mapVecMatrix v)",["C67"])
k("CK6","Ck.clrReduce","Checked.lean","sign of the multiplier dropped","(K.neg e.coeff).bind fun n => (K.inv jc).bind fun ji => (K.mul n ji).bind fun m =>\n        let vMatrix := (crmMatrix K","(K.neg e.coeff).bind fun n => (K.inv jc).bind fun ji => (K.mul e.coeff ji).bind fun m =>\n        let vMatrix := (crmMatrix K",["C67"])
k("CK7","Ck.crmColumn","Checked.lean","diagonal entry missing","| .reduced vec => some (vec ++ [(K.one, c)])","| .reduced vec => some vec",["C67"])
k("CK8","Ck.prodColumn","Checked.lean","coefficient of the right factor ignored","(left.column t.2).bind <| mapOpt fun u => (K.mul u.1 t.1).map fun m => (m, u.2)","(left.column t.2).bind <| mapOpt fun u => (K.mul u.1 K.one).map fun m => (m, u.2)",["C67"])
k("CK9","Ck.clrSave","Checked.lean","cleared column not recorded","mapInsert s.rc e.row (.cleared b)⟩","s.rc⟩",["C67"])
k("CK10","Ck.colIsCycle","Checked.lean","answer negated","(popPivot K r).map fun p => p.1.isNone","(popPivot K r).map fun p => p.1.isSome",["C67"])
k("CK11","Ck.eqOnCol","Checked.lean","column compared with itself","(toSortedVec K hb).map fun lb","(toSortedVec K ha).map fun lb",["C67"])
k("CK12","Ck.toSortedVec","Checked.lean","last entry lost (fuel off by one)","(drainFuel K ((StdHeap.bag h).card + 1) h)","(drainFuel K ((StdHeap.bag h).card) h)",["C67"])
k("QB1","Q64.Build.inv","Q64Build.lean","sign of the inverse dropped","(B.isize (a.num.sign * asIsize a.den))","(B.isize (asIsize a.den))",["C68"])
k("QB2","Q64.Build.reduce","Q64Build.lean","only the numerator is reduced","(divU q.den g).map fun d => ⟨n, d⟩","(divU q.den 1).map fun d => ⟨n, d⟩",["C68"])
k("QB3","Q64.Build.add","Q64Build.lean","factors swapped","(divU l a.den).bind fun fa => (B.isize (asIsize fa * a.num))","(divU l b.den).bind fun fa => (B.isize (asIsize fa * a.num))",["C68"])
k("QB4","Q64.Build.add","Q64Build.lean","zero sum not detected","if n = 0 then some none else (reduce ⟨n, l⟩).map some","(reduce ⟨n, l⟩).map some",["C68"])
k("QB5","Q64.asIsize","Q64Build.lean","casts do not wrap","def asIsize (x : Nat) : Int := wrapI x","def asIsize (x : Nat) : Int := x",["C68"])
k("QB6","Q64.Build.isize","Q64Build.lean","debug builds wrap, too","| .debug, x => ckI x\n  | .release, x => some (wrapI x)","| .debug, x => some (wrapI x)\n  | .release, x => some (wrapI x)",["C68"])
k("QB7","Q64.wrapI","Q64Build.lean","wrapping to 63 bits","(x + 9223372036854775808) % 18446744073709551616 - 9223372036854775808","(x + 4611686018427387904) % 9223372036854775808 - 4611686018427387904",["C68"])
k("QB8","Q64.Build.lcm","Q64Build.lean","lcm computed as the product","B.usize (a * (b / Nat.gcd a b))","B.usize (a * b)",["C68"])
k("QB9","Q64.Build.neg","Q64Build.lean","negation of the denominator sign lost","(B.isize (-a.num)).map","(B.isize (a.num)).map",["C68"])

# --- lazy iterators (C69-C71)
k("LZ1","Lazy.crmStep","Lazy.lean","diagonal entry missing","some (.inr (vec ++ [(NonZeroCoeff.one, c)]), s)","some (.inr vec, s)",["C69","C70","C71"])
k("LZ2","Lazy.crmStep","Lazy.lean","the column of the cleared cell instead of its partner","| .cleared j => (P.request j s).map","| .cleared _ => (P.request c s).map",["C70","C71"])
k("LZ3","Lazy.scaleTuple","Lazy.lean","coefficient of the right factor ignored","(NonZeroCoeff.mul u.1 k, u.2)","(NonZeroCoeff.mul u.1 NonZeroCoeff.one, u.2)",["C70","C71"])
k("LZ4","Lazy.scaleEntry","Lazy.lean","coefficient of the right factor ignored","{ coeff := NonZeroCoeff.mul e.coeff k, row","{ coeff := NonZeroCoeff.mul e.coeff NonZeroCoeff.one, row",["C69","C70","C71"])
k("LZ5","Lazy.Cols.flatMap","Lazy.lean","FlatMap stops at the end of the first inner column","| (.done, _, s') => (.skip, (rit, none), s')\n","| (.done, _, s') => (.done, (rit, none), s')\n",["C69","C70","C71"])
k("LZ6","Lazy.cachedCols","Lazy.lean","an exhausted iterator is not advanced, so its borrow is never released","pull i s := (s.iters[i]?).bind fun it => (s.step M (.next i)).map fun s' =>","pull i s := (s.iters[i]?).bind fun it => (if it.inner.map List.isEmpty = some true then some s else s.step M (.next i)).map fun s' =>",["C69","C70"])
k("LZ7","CacheState.request","Matrices.lean","fresh columns are not stored","some { cache := mapInsert s.cache c l, iters","some { cache := s.cache, iters",["C69"])
k("LZ8","CacheState.request","Matrices.lean","no check for live borrows (like a RefCell without the panic)","if s.borrowed then none\n      else some","if false then none\n      else some",["C70"])
k("LZ9","CacheState.request","Matrices.lean","live borrows clash with cached columns, too","| some l => some { s with iters","| some l => if s.borrowed then none else some { s with iters",["C70"])
k("LZ10","CacheState.request","Matrices.lean","every request goes to the underlying matrix","  match s.cache c with\n  | some l => some","  match (none : Option (List (CF × Row))) with\n  | some l => some",["C69"])
k("LZ11","CacheState.borrowed","Matrices.lean","only the last iterator counts as a borrow","s.iters.any fun it => it.inner.isSome","s.iters.getLast?.any fun it => it.inner.isSome",["C70"])
k("LZ12","Lazy.colIsCycle","Lazy.lean","answer negated","(BHCol.popPivot r).1.isNone","(BHCol.popPivot r).1.isSome",["C70","C71"])
k("LZ13","Lazy.stdReduce","Lazy.lean","multiplier without the inverse","let m := NonZeroCoeff.mul (NonZeroCoeff.neg e.coeff) (NonZeroCoeff.inv jc)\n        let vMatrix : Cols","let m := NonZeroCoeff.mul (NonZeroCoeff.neg e.coeff) jc\n        let vMatrix : Cols",["C69","C71"])
k("LZ14","Lazy.clrColumn","Lazy.lean","cleared columns are reduced, too","if (p.1.rc b).isSome then LM.ret p\n  else\n","",["C69","C71"])
k("LZ15","Lazy.clrReduce","Lazy.lean","the product with the cleared matrix one recursion deeper","let vMatrix := crmCols D.column rc depth","let vMatrix := crmCols D.column rc (depth - 1)",["C69","C71"])
k("LZ16","Lazy.readOffDiagram","Lazy.lean","order flag ignored","readLoop (productRef D (Cols.ofFun v)) B (if reverseOrder then","readLoop (productRef D (Cols.ofFun v)) B (if !reverseOrder then",["C69","C71"])
k("LZ17","Lazy.cached","Lazy.lean","the cache forwards column_with_filtration to the matrix: basis columns are never cached","colF := defaultCols (cachedCols D.toOracle) D.filt\n\nvariable [NonZero","colF := Cols.ofFun D.colF\n\nvariable [NonZero",["C69"])
k("LZ18","Lazy.Cols.flatMap","Lazy.lean","the current right entry is forgotten when its column starts: scaled with the wrong coefficient","(.skip, (rit', some (t.1, q.1)), q.2)","(.skip, (rit, some (t.1, q.1)), q.2)",["C69","C70","C71"])
k("LZ19","CacheIter.next","Matrices.lean","the borrow is not released at the end","| some [] => (none, { it with inner := none, finished := true })","| some [] => (none, { it with finished := true })",["C69"])
k("LZ20","Lazy.crmCols","Lazy.lean","cleared columns are read as columns of V instead of R","crmStep ((crmCols D rc n).flatMap D scaleTuple) rc","crmStep (crmCols D rc n) rc",["C70","C71"])
k("LE1","Lazy.Cols.chain","LazyExpr.lean","the sum requests the right column in the old state: what the left request stored is lost","(right.request c p.2).map fun q => ((some p.1, q.1), q.2)","(right.request c s).map fun q => ((some p.1, q.1), q.2)",["C72"])
k("LE2","Lazy.Cols.chain","LazyExpr.lean","the sum ends with the left column","| (.done, _, s') => (.skip, (none, rit), s')","| (.done, _, s') => (.done, (none, rit), s')",["C72"])
k("LE3","Lazy.cacheAround","LazyExpr.lean","no borrow check before storing a column","if (p.2 i).borrowed then none\n      else some","if (p.2 i).borrowed then some ((p.2 i).iters.length, Function.update p.2 i { p.2 i with iters := (p.2 i).iters ++ [⟨c, [], some p.1, false, false⟩] })\n      else some",["C72"])
k("LE4","Lazy.cacheAround","LazyExpr.lean","the column is not stored","cache := mapInsert (p.2 i).cache c p.1, iters","cache := (p.2 i).cache, iters",["C72"])
k("LE5","Lazy.cacheAround","LazyExpr.lean","a hit asks the inner matrix again","| some l => some ((s i).iters.length, Function.update s i { s i with iters := (s i).iters ++ [⟨c, [], some l, false, false⟩] })","| some l => some ((s i).iters.length, Function.update s i { s i with iters := (s i).iters ++ [⟨c, [], some l, false, false⟩], log := (s i).log ++ [c] })",["C72"])
k("LE6","Lazy.cacheAround","LazyExpr.lean","what the inner read stored in other caches is lost","else some ((p.2 i).iters.length, Function.update p.2 i","else some ((p.2 i).iters.length, Function.update s i",["C72"])
k("LE7","Lazy.cacheAround","LazyExpr.lean","the borrow check is made before the inner column is read","if (p.2 i).borrowed then none","if (s i).borrowed then none",["C72"],equivalent=True)
k("LE8","Lazy.consolidateCols","LazyExpr.lean","the iterator yields entries in the order of the inner column, uncombined","pull h s := match BHCol.popPivot h with","pull h s := match BHCol.clonePivot h with",["C72"])
k("LE9","Lazy.Expr.cols","LazyExpr.lean","factors of the product swapped","| .product l r => r.cols.flatMap l.cols scaleTuple","| .product l r => l.cols.flatMap r.cols scaleTuple",["C72"])
k("LE10","Lazy.Expr.cols","LazyExpr.lean","summands swapped","| .sum l r => l.cols.chain r.cols","| .sum l r => r.cols.chain l.cols",["C72"])
k("LE11","Lazy.Expr.cols","LazyExpr.lean","consolidate forwards the column","| .consolidate e => consolidateCols e.cols","| .consolidate e => e.cols",["C72"])
k("LE12","Lazy.Expr.cols","LazyExpr.lean","cache_cols does not cache","| .cached i e => cacheAround i e.cols","| .cached _ e => e.cols",["C72"])
k("LE13","Lazy.Expr.colF","LazyExpr.lean","the product yields the entries of the left factor unscaled","(l.colF filt) scaleEntry","(l.colF filt) (fun _ e => e)",["C72"])
k("LE14","Lazy.cacheAround","LazyExpr.lean","an iterator that ended keeps its borrow","iters := (s i).iters.modify k fun it => it.next.2 })","iters := (s i).iters.modify k fun it => if it.next.1.isNone then it else it.next.2 })",["C72"])
k("LE15","Lazy.cacheAround","LazyExpr.lean","storing a column is not counted as a request to the inner matrix","log := (p.2 i).log ++ [c] })","log := (p.2 i).log })",["C72"])
k("LE16","Lazy.readAll","LazyExpr.lean","answers in reverse order","fun l => (readAll rs).map fun ls => l :: ls","fun l => (readAll rs).map fun ls => ls ++ [l]",["C72"])
k("LE17","Lazy.Cols.chain","LazyExpr.lean","the left iterator is kept after its end and asked again","| (.done, _, s') => (.skip, (none, rit), s')","| (.done, lit', s') => (.skip, (some lit', rit), s')",["C72"])
k("DO1","clrSave","Reduction.lean","a birth found later is removed from the essential cells","(⟨⟨s.diagram.essential, insert (e.row, b) s.diagram.pairings⟩, mapInsert","(⟨⟨s.diagram.essential.erase e.row, insert (e.row, b) s.diagram.pairings⟩, mapInsert",["C73"])
k("DO2","clrColumn","Reduction.lean","only cleared columns are skipped: a repeated dimension is reduced again","  if (p.1.rc b).isSome then some p\n","  if (match p.1.rc b with | some (.cleared _) => true | _ => false) then some p\n",["C73"])
k("DO3","clrSave","Reduction.lean","the stored column of a birth that was reduced before is not overwritten","mapInsert s.rc e.row (.cleared b)⟩,","if (s.rc e.row).isSome then s.rc else mapInsert s.rc e.row (.cleared b)⟩,",["C73"],equivalent=True)
k("DO4","clrSave","Reduction.lean","clearing stores the birth in place of the death","mapInsert s.rc e.row (.cleared b)⟩,","mapInsert s.rc e.row (.cleared e.row)⟩,",["C21","C73"])
k("DO5","clrAll","Reduction.lean","dimensions are processed in reverse order","  | d :: ds, s => (clrDimension D B fuel s d).bind fun s' => clrAll D B fuel ds s'","  | d :: ds, s => (clrAll D B fuel ds s).bind fun s' => clrDimension D B fuel s' d",["C22","C73"])
k("DO6","clrAll","Reduction.lean","the first dimension is processed twice and the last is left out","  | [], s => some s\n  | d :: ds, s => (clrDimension D B fuel s d).bind fun s' => clrAll D B fuel ds s'","  | [], s => some s\n  | [_], s => some s\n  | d :: ds, s => (clrDimension D B fuel s d).bind fun s' => clrAll D B fuel ds s'",["C22","C73"])
k("ANY1","maxPairwiseDistance","Rips.lean","the diagonal is skipped, as if it were zero","(List.range vertices.length).map fun j => (i, j))).bind maxOpt","((List.range vertices.length).filter fun j => i ≠ j).map fun j => (i, j))).bind maxOpt",["C75"])
k("ANY2","maxPairwiseDistance","Rips.lean","entries above the diagonal only","(List.range vertices.length).map fun j => (i, j))).bind maxOpt","((List.range vertices.length).filter fun j => i ≤ j).map fun j => (i, j))).bind maxOpt",["C75"])
k("ANY3","distAt","Rips.lean","a missing entry is read from the transposed position instead of a panic","(distances[v]?).bind fun row => row[w]?","((distances[v]?).bind fun row => row[w]?).or ((distances[w]?).bind fun row => row[v]?)",["C75"])
k("ANY4","pushAt","Rips.lean","simplices beyond the maximum dimension are dropped without a panic","then some (bases.modify d (· ++ [x])) else none","then some (bases.modify d (· ++ [x])) else some bases",["C31","C75"])
k("ANY5","clrSave","Reduction.lean","a pair whose birth was reduced before is not reported","insert (e.row, b) s.diagram.pairings⟩, mapInsert","if (s.rc e.row).isSome then s.diagram.pairings else insert (e.row, b) s.diagram.pairings⟩, mapInsert",["C73","C74"])
k("ANY6","clrReduce","Reduction.lean","the reduction stops at a pivot whose cell has a stored column","      match low e.row with\n      | none => some (r1, vi)","      match (if (rc e.row).isSome && !(match rc e.row with | some (.cleared _) => true | _ => false) then none else low e.row) with\n      | none => some (r1, vi)",["C74"])
k("ANY7","ripsMaxDim","RipsMain.lean","default maximum dimension 0","arg.getD 1","arg.getD 0",["C52","C75"])
k("ANY8","ripsSizes","RipsMain.lean","the loop over the sizes stops before the maximum dimension","(dim, b.size)) (List.range (max_dim + 1))","(dim, b.size)) (List.range max_dim)",["C52","C75"])
k("RP1","longF64","RipsProgram.lean","birth - death","subF64 death.1 birth.1","subF64 birth.1 death.1",["C76"])
k("RP2","gtF64","RipsProgram.lean",">= instead of >","| some x => decide (b < x)","| some x => decide (b ≤ x)",["C76"])
k("RP3","gtF64","RipsProgram.lean","NaN passes the filter","  | none => false","  | none => true",["C76"])
k("RP4","hundredth","RipsProgram.lean","0.01 rounded down","F64Value.fin (5764607523034235","F64Value.fin (5764607523034234",["C76"])
k("RP5","readArg","RipsProgram.lean","the name of the program is read as argument","args[1]?","args[0]?",["C76"])
k("RP6","parseUsize","RipsProgram.lean","no plus sign","    | '+' :: cs => cs\n","",["C76"])
k("RP7","parseUsize","RipsProgram.lean","no bound of 64 bits","if n < 2 ^ 64 then some n else none","some n",["C76"])
k("RP8","readMatrix","RipsProgram.lean","errors of the csv reader are skipped","(fun row => row.bind fun row => mapOpt (parseEntry parse) row) records","(fun row => mapOpt (parseEntry parse) row) (records.filterMap id)",["C76"])
k("RP9","roundInt","RipsProgram.lean","differences are not rounded","match roundF64 z.natAbs with","match (some z.natAbs : Option ℕ) with",["C76"])
k("RP10","subF64","RipsProgram.lean","infinity minus infinity is infinity","| some none, some none => none","| some none, some none => some (some none)",["C76"])
k("RP11","parseEntry","RipsProgram.lean","entries that are not numbers are read as NaN... and NaN as the value of the last number","(parse entry).bind fun x => x","((parse entry).bind fun x => x).or (((parse \"0\").bind fun x => x))",["C76"])
k("RP12","ripsProgram","RipsProgram.lean","the argument is ignored","ripsMain CF longF64 enumE enumP distances arg fuel","ripsMain CF longF64 enumE enumP distances (arg.bind fun _ => none) fuel",["C76"])
k("RP13","parseUsize","RipsProgram.lean","the empty text is 0","if cs = [] ∨ ¬","if ¬",["C76"])
k("GA1","finiteEdges","Dijkstra.lean","edges of negative weight are left out of the graph","edges.filter fun e => e.2.2 < ⊤","edges.filter fun e => 0 ≤ e.2.2 ∧ e.2.2 < ⊤",["C77"])
k("GA2","relax","Dijkstra.lean","visited vertices are relaxed again (harmless without negative weights, endless with a negative cycle)","  if s.visited e.2.1 then s\n  else","  if s.visited e.2.1 && decide (add node_score e.2.2 ≥ node_score) then s\n  else",["C77"])
k("GA3","reportPairings","GrPPH.lean","bars whose death precedes their birth are dropped (in degree 1 the representatives are then too many)","if death_f = birth_f then some pairings else pushBar","if death_f ≤ birth_f then some pairings else pushBar",["C77","C38"])
k("GA4","dijLoop","Dijkstra.lean","a negative score panics","      if s.visited e.coeff then dijLoop add out fuel { s with heap := h }\n","      if OrderDual.ofDual e.filt < 0 then none else\n      if s.visited e.coeff then dijLoop add out fuel { s with heap := h }\n",["C77"])
k("GA6","grpphFiltrationValue","GrPPH.lean","edges of the digraph appear at a negative time if their length is negative","  | .edge s t => if (s, t) ∈ edge_set then some 0 else (et s t).bind id","  | .edge s t => if (s, t) ∈ edge_set then (et s t).map (fun o => min 0 (o.getD 0)) else (et s t).bind id",["C36","C77"])
k("GA7","dijLoop","Dijkstra.lean","a vertex whose score is negative is not expanded","      if s.visited e.coeff then dijLoop add out fuel { s with heap := h }\n","      if s.visited e.coeff || decide (OrderDual.ofDual e.filt < 0) then dijLoop add out fuel { s with heap := h }\n",["C77"])
k("RW1","allocBases","RipsProgram.lean","the size limit of a vector is usize::MAX","24 * (max_dim + 1) < 2 ^ 63","24 * (max_dim + 1) < 2 ^ 64",["C78"])
k("RW2","ripsProgramW","RipsProgram.lean","the vector of bases is allocated for the default dimension","(allocBases (ripsMaxDim arg)).bind","(allocBases (ripsMaxDim none)).bind",["C78"])
k("RW3","ripsMainW","Rips64.lean","the last dimension is not reduced","fuel (List.range (max_dim + 1))).bind fun r =>","fuel (List.range max_dim)).bind fun r =>",["C78"])
k("RW4","CobIter.yieldW","Rips64.lean","the index of a cofacet is computed with one more point","((fi (it.max_vertex + 1) new_simplex).bind id).map","((fi (it.max_vertex + 2) new_simplex).bind id).map",["C78"])
k("RW5","CobIter.collectW","Rips64.lean","a cofacet whose index overflows ends the column instead of a panic","(it.yieldW fi).bind fun p => (CobIter.collectW fuel p.2).map (p.1 :: ·)","match it.yieldW fi with | none => some [] | some p => (CobIter.collectW fuel p.2).map (p.1 :: ·)",["C78"])
k("RW6","addCofacetsW","Rips64.lean","a simplex whose index overflows is left out","((fi n_vertices (simplex ++ [v])).bind id).bind fun index =>\n        (pushAt bases new_dimension (newFil, index)).bind fun bases =>","(match (fi n_vertices (simplex ++ [v])).bind id with | none => some bases | some index => pushAt bases new_dimension (newFil, index)).bind fun bases =>",["C78"])
k("RW7","fromIndicesWrapping","Rips.lean","release build with 32-bit indices","(p.1 + 1)).sum % 2 ^ 64","(p.1 + 1)).sum % 2 ^ 32",["C78"])
k("RW8","fromIndices64","Rips.lean","the multiplication wraps instead of panicking","(chk64 (x * c)).bind fun y =>","(chk64 (x * c % 2 ^ 64)).bind fun y =>",["C78"])
k("RW9","fromIndices64","Rips.lean","the power of the next place is computed too","(pow64 b p.2).bind fun x =>","(pow64 b (p.2 + 1)).bind fun _ => (pow64 b p.2).bind fun x =>",["C78"])
k("TP1","longSquaresWithPrimaryBridge","GrPPH.lean","if the edge a -> c appears at infinity, squares through two-paths at infinity are produced as well","if aic_time ≥ ac_time then none else","if aic_time ≥ ac_time ∧ ac_time ≠ ⊤ then none else",["C35","C43","C61","C77"])
k("TP2","relax","Dijkstra.lean","a score that overflows to infinity is not stored","  if s.visited e.2.1 then s\n  else","  if s.visited e.2.1 || decide (add node_score e.2.2 = ⊤) then s\n  else",["C61","C77"])
k("TP3","reportPairings","GrPPH.lean","bars that die at infinity are left out","if death_f = birth_f then some pairings else pushBar","if death_f = birth_f ∨ death_f = ⊤ then some pairings else pushBar",["C43","C61","C77"])
k("TP4","dijLoop","Dijkstra.lean","the search stops at the first infinite score","      if s.visited e.coeff then dijLoop add out fuel { s with heap := h }\n","      if OrderDual.ofDual e.filt = ⊤ then some s.scores else\n      if s.visited e.coeff then dijLoop add out fuel { s with heap := h }\n",["C61","C77"])
k("UT1","addCofacets","Rips.lean","the distances to the new vertex are read below the diagonal","mapOpt (fun w => distAt distances w v) simplex","mapOpt (fun w => distAt distances v w) simplex",["C79"])
k("UT2","maxPairwiseDistance","Rips.lean","only entries on and below the diagonal are read","(List.range vertices.length).map fun j => (i, j))","(List.range (i + 1)).map fun j => (i, j))",["C79"])
k("UT3","ripsMain","RipsMain.lean","the number of points is the length of the first row","(ripsEssential d.1.reverse.filt distances.length (","(ripsEssential d.1.reverse.filt (distances.headD []).length (",["C79","C75"])
k("ST1","standardAlgo","Reduction.lean","the last basis column is not reduced","(stdLoop D B fuel (List.range B.size) ","(stdLoop D B fuel (List.range (B.size - 1)) ",["C80","C16"])
k("ST2","readLoop","Reduction.lean","a paired cell stays essential","{ essential := d.essential.erase piv.row, pairings","{ essential := d.essential, pairings",["C80","C22"])
k("ST3","multiElement","Rips.lean","the position of a dimension is wrong at its end","if working ≥ (singleDimBasis basis).size then multiElement","if working > (singleDimBasis basis).size then multiElement",["C80"])
k("ST4","multiDimBasis","Rips.lean","the size counts the dimensions above 0 only","size := (bases.map fun","size := ((bases.drop 1).map fun",["C80"])
k("ST5","readLoop","Reduction.lean","the pair is stored as (death, birth)","pairings := insert (piv.row, b) d.pairings }","pairings := insert (b, piv.row) d.pairings }",["C80","C22"])
k("ST6","clrSave","Reduction.lean","the pivot column of a cleared cell is stored under the column itself","mapInsert s.rc e.row (.cleared b)","mapInsert s.rc b (.cleared b)",["C23","C80"])
k("ST7","addCofacets","Rips.lean","the last vertex is never added to a simplex","(n_vertices - (max_element + 1))).foldlM","(n_vertices - (max_element + 2))).foldlM",["C80"])
k("NB1","roundRat","Decimal.lean","ties away from zero","2 * r = den * 2 ^ e ∧ q % 2 = 1","2 * r = den * 2 ^ e",["C82"])
k("NB2","roundRat","Decimal.lean","one bit of precision less","else Nat.log2 q0 - 52","else Nat.log2 q0 - 51",["C82"])
k("NB3","parseNumber","Decimal.lean","the point is ignored if there is an exponent","(digitsValue (ip ++ fr.1), k - fr.1.length)","(digitsValue (ip ++ fr.1), k)",["C82"])
k("NB4","parseExponent","Decimal.lean","a plus sign in the exponent is an error","  | '+' :: cs => (parseDigitsOnly cs).map fun n : ℕ => (n : ℤ)\n  | cs => (parseDigitsOnly cs).map fun n : ℕ => (n : ℤ)","  | cs => (parseDigitsOnly cs).map fun n : ℕ => (n : ℤ)",["C82"])
k("NB5","parseNumber","Decimal.lean","digits before the point are required","if ip = [] ∧ fr.1 = [] then none","if ip = [] then none",["C82"])
k("NB6","parseF64Value","Decimal.lean","-inf is read as inf","some (some (if sg.1 then ⊥ else ((⊤ : WithTop ℤ) : WithBot (WithTop ℤ))))","some (some ((⊤ : WithTop ℤ) : WithBot (WithTop ℤ)))",["C82","C85"])
k("NB7","parseF64Value","Decimal.lean","words in lower case only","let low := sg.2.map Char.toLower","let low := sg.2",["C82"])
k("NB8","signedF64","Decimal.lean","overflow gives the greatest finite number's binade instead of infinity","if n < overflowF64 then","if n < 2 * overflowF64 then",["C82"])
k("NB9","decimalF64","Decimal.lean","numbers below the least normal number become 0","signedF64 neg (roundRat (m * 10 ^ e.toNat * 2 ^ 1074) (10 ^ (-e).toNat))","signedF64 neg (let r := roundRat (m * 10 ^ e.toNat * 2 ^ 1074) (10 ^ (-e).toNat); if r < 2 ^ 52 then 0 else r)",["C82"])
k("TX1","csvTerm","RipsText.lean","a carriage return does not end a line","c == '\\n' || c == '\\r'","c == '\\n'",["C83"])
k("TX2","csvStep","RipsText.lean","a doubled quote is dropped","if c = '\"' then (.inQuoted, .copy) else csvInField c","if c = '\"' then (.inQuoted, .skip) else csvInField c",["C83"])
k("TX3","csvStep","RipsText.lean","a blank line is a record with an empty field","if csvTerm c then (.startRecord, .skip) else csvStartField c","csvStartField c",["C83"])
k("TX4","csvRecords","RipsText.lean","rows of different lengths are accepted (flexible)","if row.length = (rows.headD []).length then some row else none","some row",["C83"])
k("TX5","csvRecords","RipsText.lean","the first row is taken for a header","  rows.map fun row => if","  (rows.drop 1).map fun row => if",["C83"])
k("TX6","csvGo","RipsText.lean","the last line is lost if it has no end of line","if st = .startRecord then [] else [row ++ [String.ofList field]]","[]",["C83"])
k("TX7","stripBom","RipsText.lean","a byte order mark becomes part of the first entry","if c.toNat = 0xFEFF then cs else c :: cs","c :: cs",["C83"])
k("TX8","Printing.andThen","RipsText.lean","printing goes on after a panic","if a.2 then (a.1 ++ b.1, b.2) else a","(a.1 ++ b.1, a.2 && b.2)",["C84"])
k("TX9","pairingLine","RipsText.lean","death and birth indices are swapped in the line","debugIndex x.2.1.1 ++ \", \" ++ debugIndex x.2.1.2","debugIndex x.2.1.2 ++ \", \" ++ debugIndex x.2.1.1",["C83","C84"])
k("TX10","sizeLine","RipsText.lean","no separator between dimension and size","toString x.1 ++ \": \" ++","toString x.1 ++ \"\" ++",["C84"])
k("TX11","ripsStdout","RipsText.lean","the size of the last dimension is not printed","sizeLine (List.range (max_dim + 1))).andThen","sizeLine (List.range max_dim)).andThen",["C83","C84"])
k("TX12","ripsStdout","RipsText.lean","for an empty table the heading is printed, then a panic","  Printing.compute (buildRipsCoboundaryMatrix CF distances max_dim) fun d =>\n","  (Printing.line \"\").andThen <|\n  if distances = [] then (\"Basis sizes:\\n\", false) else\n  Printing.compute (buildRipsCoboundaryMatrix CF distances max_dim) fun d =>\n",["C83","C84"])
k("DP1","shortestFrom","Display.lean","the digits are truncated even if the next number is nearer","if up && (!down || decide (p ≤ 2 * (m % p))) then","if up && !down then",["C85"])
k("DP2","shortestFrom","Display.lean","only truncated digits are tried","if up && (!down || decide (p ≤ 2 * (m % p))) then","if false && (!down || decide (p ≤ 2 * (m % p))) then",["C85"])
k("DP3","shortestFrom","Display.lean","numbers are printed with one digit more than needed","    else if down then (lo, (k + 1 : ℕ) - 1074)\n    else shortestFrom n m k","    else if down then (m / 10 ^ k, (k : ℕ) - 1074)\n    else shortestFrom n m k",["C85"])
k("DP4","positional","Display.lean","zeros after the point are left out","\"0.\" ++ zeros ((-e).toNat - ds.length) ++ toString c","\"0.\" ++ toString c",["C85"])
k("DP5","displayF64","Display.lean","the sign is lost","if z < 0 then \"-\" ++ displayFinite z.natAbs else","if z < 0 then displayFinite z.natAbs else",["C85"])
k("DP6","positional","Display.lean","numbers below 1 are printed without a zero before the point","\"0.\" ++ zeros","\".\" ++ zeros",["C85"])
k("DP7","shortest","Display.lean","the loop begins with the first digit","shortestFrom n m (numDigits (Nat.log2 m + 1) m)","shortestFrom n m (numDigits (Nat.log2 m + 1) m - 1)",["C85"])
k("GP1","grpphPrintReport","GrPPHText.lean","birth and death indices of a pair are printed in the wrong order","some ((tup.2, tup.1), birth_f, death_f)","some ((tup.1, tup.2), birth_f, death_f)",["C89"])
k("GP2","grpphPrintReport","GrPPHText.lean","pairs of length 0 are printed","    if death_f = birth_f then none else some","    if False then none else some",["C89"])
k("GP3","debug2Cell","GrPPHText.lean","the vertices of a double edge are swapped","\"DoubleEdge(\" ++ toString a ++ \", \" ++ toString b","\"DoubleEdge(\" ++ toString b ++ \", \" ++ toString a",["C89"])
k("GP4","grpphPrintReport","GrPPHText.lean","the values of birth and death are swapped in the line","some ((tup.2, tup.1), birth_f, death_f)","some ((tup.2, tup.1), death_f, birth_f)",["C89"])
k("GP5","grpphMainStdout","GrPPHText.lean","the second progress message comes before the shortest paths' one","  (Printing.line \"Computed filtration\\n\").andThen <|\n  Printing.compute (buildGrpphCoboundary CF (vecEdgeTime (buildFiltration n (tableLookup tables))) (order (mainEdgeSet n)) (asU16 n)) fun d =>\n  (Printing.line \"Built coboundary matrix\\n\").andThen <|","  Printing.compute (buildGrpphCoboundary CF (vecEdgeTime (buildFiltration n (tableLookup tables))) (order (mainEdgeSet n)) (asU16 n)) fun d =>\n  (Printing.line \"Built coboundary matrix\\n\").andThen <|\n  (Printing.line \"Computed filtration\\n\").andThen <|",["C89"])
k("GP6","grpphMainStdout","GrPPHText.lean","only the nodes are reduced","fuel [0, 1]) fun r =>","fuel [0]) fun r =>",["C89"])
k("GP7","grpphPrintReport","GrPPHText.lean","the number of all pairs is printed","(Printing.line (toString count ++ \"\\n\"))","(Printing.line (toString diagram.pairings.card ++ \"\\n\"))",["C89"])
k("GP8","grpphEssentialLine","GrPPHText.lean","the essential line has no infinity","fmt x.2 ++ \", ∞)\\n\"","fmt x.2 ++ \", )\\n\"",["C89"])
k("GP9","twoPathToTwoCell","GrPPH.lean","a directed triangle appears with its two-step path only if that comes strictly later","          if abc_time ≥ ac_time then some (some (.directedTriangle a b c, abc_time), false)","          if abc_time > ac_time then some (some (.directedTriangle a b c, abc_time), false)",["C89"])
k("GP10","debugRevCell","GrPPHText.lean","the wrapper Reverse is not printed","\"Reverse(\" ++ debugCell (OrderDual.ofDual idx) ++ \")\"","debugCell (OrderDual.ofDual idx)",["C89"])
k("RQ1","ripsStdoutW","RipsText.lean","the reservation of the bases does not panic","  Printing.compute (allocBases (ripsMaxDim arg)) fun _ =>\n  Printing.compute (buildRipsCoboundaryMatrixW","  Printing.compute (buildRipsCoboundaryMatrixW",["C86"])
k("RQ2","ripsPrint","RipsText.lean","the sizes are printed after the reduction","  (Printing.line \"Basis sizes:\\n\").andThen <|\n  (Printing.loop (fun dim => (d.2.reverse.inDim dim).map fun b => some (dim, b.size)) sizeLine (List.range (max_dim + 1))).andThen <|\n  Printing.compute (buildWithDiagram d.1.reverse.ref d.2.reverse fuel (List.range (max_dim + 1))) fun r =>","  Printing.compute (buildWithDiagram d.1.reverse.ref d.2.reverse fuel (List.range (max_dim + 1))) fun r =>\n  (Printing.line \"Basis sizes:\\n\").andThen <|\n  (Printing.loop (fun dim => (d.2.reverse.inDim dim).map fun b => some (dim, b.size)) sizeLine (List.range (max_dim + 1))).andThen <|",["C86"])
k("RQ3","ripsPrint","RipsText.lean","the filter compares with the wrong sign","if longF64 (OrderDual.ofDual birth_f) (OrderDual.ofDual death_f) then","if longF64 (OrderDual.ofDual death_f) (OrderDual.ofDual birth_f) then",["C83","C86","C87"])
k("RQ4","ripsPrint","RipsText.lean","the dimension of the death index is printed","(ripsDimension n_points (OrderDual.ofDual tup.2)).bind fun dim =>","(ripsDimension n_points (OrderDual.ofDual tup.1)).bind fun dim =>",["C83","C86","C87"])
k("RQ5","allocBases","RipsProgram.lean","24 bytes for each dimension, the last one forgotten","24 * (max_dim + 1) < 2 ^ 63","24 * max_dim < 2 ^ 63",["C86"])
k("RQ7","buildRipsBases","Rips.lean","the last vertex is not put into the bases","(pushAt bases 0 (0, index)).bind fun bases =>","(if v + 1 = distances.length then some bases else pushAt bases 0 (0, index)).bind fun bases =>",["C86","C87","C88"])
k("RQ8","ripsPairings","RipsMain.lean","the filter is applied with >=","if long (OrderDual.ofDual birth_f) (OrderDual.ofDual death_f) then","if !(long (OrderDual.ofDual death_f) (OrderDual.ofDual birth_f)) then",["C87"])
# primitives that no mutation had touched so far
k("V1","displayFinite","Display.lean","the exponent is off by one","positional (shortest n).1 (shortest n).2","positional (shortest n).1 ((shortest n).2 + 1)",["C85"])
k("V2","zeros","Display.lean","padding with the wrong character","List.replicate n '0'","List.replicate n ' '",["C85"])
k("V3","numDigits","Display.lean","the first digit is not counted","if m = 0 then 0 else numDigits f (m / 10) + 1","if m < 10 then 0 else numDigits f (m / 10) + 1",["C85"])
k("V4","parseSign","Decimal.lean","the minus sign is skipped","| '-' :: cs => (true, cs)","| '-' :: cs => (false, cs)",["C82"])
k("V5","parseFraction","Decimal.lean","a decimal comma","| '.' :: cs => (cs.takeWhile","| ',' :: cs => (cs.takeWhile",["C82"])
k("V6","parseDigitsOnly","Decimal.lean","an exponent without digits is accepted","if cs = [] ∨ ¬ (cs.all fun c => c.isDigit) then none","if ¬ (cs.all fun c => c.isDigit) then none",["C82"])
k("V7","digitsValue","Decimal.lean","the first digit is dropped","cs.foldl (fun n c => 10 * n","cs.tail.foldl (fun n c => 10 * n",["C82"])
k("V8","overflowF64","Float64.lean","numbers overflow only at 2^1025",":= 2 ^ 2098",":= 2 ^ 2099",["C82","C65"])
k("V9","csvInField","RipsText.lean","fields are separated by semicolons","if c = ',' then (.startField, .endField)","if c = ';' then (.startField, .endField)",["C83"])
k("V10","csvStartField","RipsText.lean","quotes are not recognized","if c = '\"' then (.inQuoted, .skip) else csvInField c","csvInField c",["C83"])
k("V11","debugIndex","RipsText.lean","indices are printed without their number","\"Reverse(RipsIndex(\" ++ toString (OrderDual.ofDual idx : ℕ) ++ \"))\"","\"Reverse(RipsIndex(..))\"",["C84"])
k("V12","essentialLine","RipsText.lean","the start of the interval is missing","\", f=(\" ++ fmt x.2.2 ++ \", ∞)\\n\"","\", f=(0, ∞)\\n\"",["C84"])
k("V13","Printing.loop","RipsText.lean","the loop ends at the first round that prints nothing","fun b => Printing.andThen (Printing.line (match b with | none => \"\" | some b => line b)) (Printing.loop f line l)","fun b => match b with | none => (\"\", true) | some b => Printing.andThen (Printing.line (line b)) (Printing.loop f line l)",["C83","C84"])
k("V14","wrapU","Q64Build.lean","usize has 63 bits","x % 18446744073709551616","x % 9223372036854775808",["C68"])
k("V15","CobIter.collect","Rips.lean","the iterator ends after the first cofacet","it.yield_.bind fun p => (CobIter.collect fuel p.2).map (p.1 :: ·)","it.yield_.map fun p => [p.1]",["C29"])
k("V16","ripsCoboundaryColumn","Rips.lean","the first cofacet is lost","l.map fun t => (t.1, t.2.1)","l.tail.map fun t => (t.1, t.2.1)",["C29","C32"])
k("V17","ripsCoboundaryColumnW","Rips64.lean","the first cofacet is lost","l.map fun t => (t.1, t.2.1)","l.tail.map fun t => (t.1, t.2.1)",["C57"])
k("V18","LM.bind","Lazy.lean","the state of the caches is lost between two steps","(m n s).bind fun p => k p.1 n p.2","(m n s).bind fun p => k p.1 n s",["C69"])
k("V19","Cols.drain","Lazy.lean","reading ends at the first step without an item","    | (.skip, it', s') => L.drain n it' s'","    | (.skip, _, s') => some ([], s')",["C71"])
k("V20","debugCell","GrPPHText.lean","source and target of an edge are swapped","\"Edge(\" ++ toString s ++ \", \" ++ toString t ++ \")\"","\"Edge(\" ++ toString t ++ \", \" ++ toString s ++ \")\"",["C89"])
k("V21","grpphPairingLine","GrPPHText.lean","start and end are swapped","fmt x.2.1 ++ \", \" ++ fmt x.2.2 ++ \")\\n\"","fmt x.2.2 ++ \", \" ++ fmt x.2.1 ++ \")\\n\"",["C89"])
