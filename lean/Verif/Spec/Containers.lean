import Verif.Model.Containers

/-
Specification vocabulary for the container types: sequences as alternating lists, histories of operations, lawful iterators.
-/

namespace Parsel.Spec

variable {T P I A : Type}

/-- A punctuated sequence as the list of its values (`inl`) and separators (`inr`) in order. -/
def flat (ps : List (Pair T P)) : List (T ⊕ P) :=
  ps.flatMap fun
    | .punctuated t p => [.inl t, .inr p]
    | .stop t => [.inl t]

/-- The sequence is not empty and its last element is a value, not a separator. -/
def EndsInValue (s : Punct T P) : Prop := ∃ pre v, flat s.pairs = pre ++ [.inl v]

/-- The mutating operations that `Separated` offers. -/
inductive SepOp (T P : Type) where
  | insert (i : Nat) (v : T)
  | push (p : P) (v : T)
  | pushValue (v : T)
  | extendValues (vs : List T)
  | extendPairs (pvs : List (P × T))
  | firstMut (f : T → T)
  | lastMut (f : T → T)
  | iterMut (f : Nat → T → T)
  | pairsMut (f : Nat → T → T) (g : Nat → P → P)
  | indexMut (i : Nat) (f : T → T)

/-- Running one operation of `Separated` (`none` = panic). -/
def SepOp.run (dflt : P) : SepOp T P → Separated T P → Option (Separated T P)
  | .insert i v, s => s.insert dflt i v
  | .push p v, s => s.push p v
  | .pushValue v, s => s.pushValue dflt v
  | .extendValues vs, s => s.extendValues dflt vs
  | .extendPairs pvs, s => s.extendPairs pvs
  | .firstMut f, s => s.firstMut f
  | .lastMut f, s => s.lastMut f
  | .iterMut f, s => some (s.iterMut f)
  | .pairsMut f g, s => some (s.pairsMut f g)
  | .indexMut i f, s => s.indexMut i f

/-- Running a history of operations. -/
def runHistory (dflt : P) : List (SepOp T P) → Separated T P → Option (Separated T P)
  | [], s => some s
  | op :: ops, s => (op.run dflt s).bind (runHistory dflt ops)

/-- Changing an element of an alternating list in place.  (The `k`-th value is at position `2 * k`, the separator after it at `2 * k + 1`.) -/
def change (f : T → T) (g : P → P) : T ⊕ P → T ⊕ P
  | .inl t => .inl (f t)
  | .inr p => .inr (g p)

/-- What each operation does to the alternating list of values and separators. -/
def SepOp.effect (dflt : P) : SepOp T P → List (T ⊕ P) → List (T ⊕ P)
  | .insert i v, l =>
    if 2 * i < l.length then l.take (2 * i) ++ [.inl v, .inr dflt] ++ l.drop (2 * i) else l ++ [.inr dflt, .inl v]
  | .push p v, l => l ++ [.inr p, .inl v]
  | .pushValue v, l => l ++ [.inr dflt, .inl v]
  | .extendValues vs, l => l ++ vs.flatMap fun v => [.inr dflt, .inl v]
  | .extendPairs pvs, l => l ++ pvs.flatMap fun x => [.inr x.1, .inl x.2]
  | .firstMut f, l => l.mapIdx fun j => if j = 0 then change f id else id
  | .lastMut f, l => l.mapIdx fun j => if j + 1 = l.length then change f id else id
  | .iterMut f, l => l.mapIdx fun j => change (f (j / 2)) id
  | .pairsMut f g, l => l.mapIdx fun j => change (f (j / 2)) (g (j / 2))
  | .indexMut i f, l => l.mapIdx fun j => if j = 2 * i then change f id else id

/-- `ops` are the operations of a well-behaved iterator over the list `items i` (its remaining items). -/
structure LawfulIter (ops : IterOps I A) (items : I → List A) : Prop where
  next : ∀ i, (ops.next i).1 = (items i).head? ∧ items (ops.next i).2 = (items i).tail
  nextBack : ∀ i, (ops.nextBack i).1 = (items i).getLast? ∧ items (ops.nextBack i).2 = (items i).dropLast
  nth : ∀ i n, (ops.nth i n).1 = (items i)[n]? ∧ items (ops.nth i n).2 = (items i).drop (n + 1)
  last : ∀ i, ops.last i = (items i).getLast?
  count : ∀ i, ops.count i = (items i).length
  sizeHint : ∀ i, (ops.sizeHint i).1 ≤ (items i).length ∧ ∀ u, (ops.sizeHint i).2 = some u → (items i).length ≤ u

end Parsel.Spec
