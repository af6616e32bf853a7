import Verif
open Lean
partial def go (env : Environment) (n : Name) (s : NameSet) : NameSet := Id.run do
  if s.contains n then return s
  if !(`Phlite).isPrefixOf n then return s
  let mut s := s.insert n
  match env.find? n with
  | none => return s
  | some ci =>
    let cs := ci.type.getUsedConstants ++ (match ci.value? (allowOpaque := true) with | some v => v.getUsedConstants | none => #[])
    let cs := cs ++ (match ci with | .inductInfo i => i.ctors.toArray | _ => #[])
    for c in cs do s := go env c s
    return s
run_cmd do
  let env ← getEnv
  let mut out := "{"
  let mut first := true
  for (n, _) in env.constants.map₁.toList do
    if (`Phlite).isPrefixOf n && (n.getString!.startsWith "C") && (n.getString!.toList.getD 1 ' ').isDigit then
      let s := go env n {}
      out := out ++ (if first then "" else ",\n") ++ s!"\"{n.getString!}\": [" ++ ", ".intercalate (s.toList.map fun x => s!"\"{x}\"") ++ "]"
      first := false
  IO.FS.writeFile "/tmp/w/deps.json" (out ++ "}")
