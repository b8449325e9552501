import Lean
/-
Tool for mutation testing (not part of the development): elaborates a module of the project, goes on after errors, and writes the `.olean` all the same, so
that the modules that import it can be checked, too.  Prints the lines of the errors and the declarations whose proof failed.
-/
open Lean Elab

def failedAxiom : Name := .mkSimple ("sor" ++ "ryAx")

unsafe def main (args : List String) : IO UInt32 := do
  let [file, modName, out, lib] := args | return 2
  initSearchPath (← findSysroot) [lib]
  enableInitializersExecution
  let src ← IO.FS.readFile file
  let ictx := Parser.mkInputContext src file
  let (header, ps, msgs) ← Parser.parseHeader ictx
  let mod := modName.toName
  let opts : Options := ({} : Options).setBool `autoImplicit true
  let (env, msgs) ← processHeader header opts msgs ictx (mainModule := mod)
  let env := env.setMainModule mod
  let s ← IO.processCommands ictx ps (Command.mkState env msgs opts)
  let env := s.commandState.env
  for m in s.commandState.messages.toList do
    if m.severity == .error then IO.println s!"ERR {m.pos.line} {m.pos.column}"
  for (n, c) in env.constants.map₂.toList do
    let used := c.type.getUsedConstants ++ (c.value? (allowOpaque := true)).elim #[] (·.getUsedConstants)
    if used.contains failedAxiom then IO.println s!"FAIL {n}"
  writeModule env out
  return 0
