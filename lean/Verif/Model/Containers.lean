/-
The data structures of parsel/src/ast.rs and their API (no parsing here), on top of the EXTERNAL
`syn::punctuated::Punctuated`.  A method that can panic returns `Option` (`none` = panic); a method
taking `&mut self` returns the new value.
-/

namespace Parsel

/-! ### EXTERNAL `syn::punctuated` -/

/-- EXTERNAL `syn::punctuated::Punctuated<T, P>`: `inner: Vec<(T, P)>`, `last: Option<Box<T>>`
(wrapped by ast.rs:1365-1367 and ast.rs:1691-1693). -/
structure Punct (T P : Type) where
  inner : List (T × P)
  last : Option T
  deriving DecidableEq, Repr

/-- EXTERNAL `syn::punctuated::Pair<T, P>` (imported at ast.rs:23). -/
inductive Pair (T P : Type) where
  | punctuated (t : T) (p : P)
  | stop (t : T)
  deriving DecidableEq, Repr

namespace Punct
variable {T P : Type}

/-- EXTERNAL `Punctuated::new`. -/
def empty : Punct T P := ⟨[], none⟩
/-- EXTERNAL `Punctuated::len`. -/
def len (s : Punct T P) : Nat := s.inner.length + (if s.last.isSome then 1 else 0)
/-- EXTERNAL `Punctuated::is_empty`. -/
def isEmpty (s : Punct T P) : Bool := s.inner.isEmpty && s.last.isNone
/-- EXTERNAL `Punctuated::empty_or_trailing`. -/
def emptyOrTrailing (s : Punct T P) : Bool := s.last.isNone
/-- EXTERNAL `Punctuated::push_value`: asserts `empty_or_trailing`. -/
def pushValue (s : Punct T P) (v : T) : Option (Punct T P) :=
  if s.emptyOrTrailing then some ⟨s.inner, some v⟩ else none
/-- EXTERNAL `Punctuated::push_punct`: asserts that there is a last value. -/
def pushPunct (s : Punct T P) (p : P) : Option (Punct T P) :=
  match s.last with
  | some v => some ⟨s.inner ++ [(v, p)], none⟩
  | none => none
/-- EXTERNAL `Punctuated::push`: a default separator first if needed (`dflt` is `P::default()`). -/
def push (dflt : P) (s : Punct T P) (v : T) : Option (Punct T P) :=
  if s.emptyOrTrailing then s.pushValue v
  else (s.pushPunct dflt).bind fun s' => s'.pushValue v
/-- EXTERNAL `Punctuated::insert`: asserts `index <= len`. -/
def insert (dflt : P) (s : Punct T P) (i : Nat) (v : T) : Option (Punct T P) :=
  if i ≤ s.len then
    if i = s.len then s.push dflt v
    else some ⟨s.inner.take i ++ (v, dflt) :: s.inner.drop i, s.last⟩
  else none
/-- EXTERNAL `Punctuated::{pairs, into_pairs}` collected into a list. -/
def pairs (s : Punct T P) : List (Pair T P) :=
  s.inner.map (fun tp => Pair.punctuated tp.1 tp.2) ++ (s.last.map Pair.stop).toList
/-- EXTERNAL `Punctuated::{iter, into_iter}` collected into a list. -/
def values (s : Punct T P) : List T := s.inner.map Prod.fst ++ s.last.toList
/-- EXTERNAL `Punctuated::first`. -/
def first (s : Punct T P) : Option T := s.values.head?
/-- EXTERNAL `Punctuated::last`. -/
def lastValue (s : Punct T P) : Option T := s.values.getLast?
/-- EXTERNAL `Index<usize> for Punctuated` (`none` = panic; `self.len() - 1` underflows, i.e. panics, when empty). -/
def index (s : Punct T P) (i : Nat) : Option T :=
  if s.len = 0 then none
  else if i = s.len - 1 then
    match s.last with
    | some t => some t
    | none => s.inner[i]?.map Prod.fst
  else s.inner[i]?.map Prod.fst
/-- EXTERNAL `Punctuated::iter_mut`: the effect of running over the values with a function that sees the position of each. -/
def iterMut (f : Nat → T → T) (s : Punct T P) : Punct T P :=
  ⟨s.inner.mapIdx fun i tp => (f i tp.1, tp.2), s.last.map (f s.inner.length)⟩
/-- EXTERNAL `Punctuated::pairs_mut`: likewise, for values and separators. -/
def pairsMut (f : Nat → T → T) (g : Nat → P → P) (s : Punct T P) : Punct T P :=
  ⟨s.inner.mapIdx fun i tp => (f i tp.1, g i tp.2), s.last.map (f s.inner.length)⟩
/-- EXTERNAL `Punctuated::first_mut` (`iter_mut().next()`; `none`: there is no value), used to change the value. -/
def firstMut (f : T → T) (s : Punct T P) : Option (Punct T P) :=
  match s.inner, s.last with
  | (t, p) :: rest, l => some ⟨(f t, p) :: rest, l⟩
  | [], some t => some ⟨[], some (f t)⟩
  | [], none => none
/-- EXTERNAL `Punctuated::last_mut` (`iter_mut().next_back()`). -/
def lastMut (f : T → T) (s : Punct T P) : Option (Punct T P) :=
  match s.last with
  | some t => some ⟨s.inner, some (f t)⟩
  | none => s.inner.getLast?.map fun tp => ⟨s.inner.dropLast ++ [(f tp.1, tp.2)], none⟩
/-- EXTERNAL `IndexMut<usize> for Punctuated`, used to change the value (`none` = panic). -/
def indexMut (i : Nat) (f : T → T) (s : Punct T P) : Option (Punct T P) :=
  if s.len = 0 then none
  else if i = s.len - 1 then
    match s.last with
    | some t => some ⟨s.inner, some (f t)⟩
    | none => s.inner[i]?.map fun tp => ⟨s.inner.set i (f tp.1, tp.2), none⟩
  else s.inner[i]?.map fun tp => ⟨s.inner.set i (f tp.1, tp.2), s.last⟩
/-- EXTERNAL `Extend<T> for Punctuated<T, P>` and `FromIterator<T>` (from `empty`). -/
def extendValues (dflt : P) : Punct T P → List T → Option (Punct T P)
  | s, [] => some s
  | s, v :: vs => (s.push dflt v).bind fun s' => extendValues dflt s' vs
/-- EXTERNAL `do_extend`: panics on an item after `Pair::End`. -/
def doExtend : Punct T P → List (Pair T P) → Option (Punct T P)
  | s, [] => some s
  | s, .punctuated t p :: ps => doExtend ⟨s.inner ++ [(t, p)], s.last⟩ ps
  | s, [.stop t] => some ⟨s.inner, some t⟩
  | _, .stop _ :: _ :: _ => none
/-- EXTERNAL `Extend<Pair<T, P>> for Punctuated<T, P>`: a default separator first if needed. -/
def extendPairs (dflt : P) (s : Punct T P) (ps : List (Pair T P)) : Option (Punct T P) :=
  if s.emptyOrTrailing then s.doExtend ps
  else (s.pushPunct dflt).bind fun s' => s'.doExtend ps
/-- EXTERNAL `FromIterator<T> for Punctuated<T, P>`; parsel ast.rs:1469-1476. -/
def fromValues (dflt : P) (vs : List T) : Option (Punct T P) := extendValues dflt empty vs
/-- EXTERNAL `FromIterator<Pair<T, P>> for Punctuated<T, P>`; parsel ast.rs:1480-1487. -/
def fromPairs (ps : List (Pair T P)) : Option (Punct T P) := doExtend empty ps
/-- EXTERNAL `impl ToTokens for Punctuated` (`append_all(self.pairs())`), generic in what a token is. -/
def toTokens {X : Type} (f : T → List X) (g : P → List X) (s : Punct T P) : List X :=
  s.pairs.flatMap fun
    | .punctuated t p => f t ++ g p
    | .stop t => f t

end Punct

/-! ### parsel `Punctuated<T, P>` (ast.rs:1365-1607)

Every method of ast.rs:1369-1553 forwards to the EXTERNAL container (`is_empty` 1376, `len` 1380, `iter` 1388,
`into_pairs` 1396, `from_iter` 1469/1480, `extend` 1494/1506, `index` 1544), so the model uses `Punct` directly. -/

/-- ast.rs:1365-1367 `Punctuated`. -/
abbrev PPunctuated (T P : Type) := Punct T P

/-! ### parsel `Separated<T, P>` -/

/-- ast.rs:1691-1693 `Separated`: the same representation; non-emptiness is not enforced by the type. -/
structure Separated (T P : Type) where
  inner : Punct T P
  deriving DecidableEq, Repr

namespace Separated
variable {T P : Type}

/-- ast.rs:1696-1698 `len`: panics when empty. -/
def len (s : Separated T P) : Option Nat := if s.inner.len = 0 then none else some s.inner.len
/-- ast.rs:1704-1706 `first`: panics when empty. -/
def first (s : Separated T P) : Option T := s.inner.first
/-- ast.rs:1712-1714 `last`: panics when empty. -/
def last (s : Separated T P) : Option T := s.inner.lastValue
/-- ast.rs:1723-1728 `insert`. -/
def insert (dflt : P) (s : Separated T P) (i : Nat) (v : T) : Option (Separated T P) :=
  (s.inner.insert dflt i v).map Separated.mk
/-- ast.rs:1733-1736 `push`. -/
def push (s : Separated T P) (p : P) (v : T) : Option (Separated T P) :=
  (s.inner.pushPunct p).bind fun s' => (s'.pushValue v).map Separated.mk
/-- ast.rs:1741-1746 `push_value`. -/
def pushValue (dflt : P) (s : Separated T P) (v : T) : Option (Separated T P) := s.push dflt v
/-- ast.rs:1907-1912 `Extend<T>`. -/
def extendValues (dflt : P) (s : Separated T P) (vs : List T) : Option (Separated T P) :=
  (s.inner.extendValues dflt vs).map Separated.mk
/-- ast.rs:1918-1925 `Extend<(P, T)>`. -/
def extendPairs : Separated T P → List (P × T) → Option (Separated T P)
  | s, [] => some s
  | s, (p, v) :: rest => (s.push p v).bind fun s' => s'.extendPairs rest
/-- ast.rs:1708-1710 `first_mut`: panics when empty. -/
def firstMut (f : T → T) (s : Separated T P) : Option (Separated T P) := (s.inner.firstMut f).map Separated.mk
/-- ast.rs:1716-1718 `last_mut`: panics when empty. -/
def lastMut (f : T → T) (s : Separated T P) : Option (Separated T P) := (s.inner.lastMut f).map Separated.mk
/-- ast.rs:1752-1754 `iter_mut`, 1949-1956 `IntoIterator for &mut Separated`. -/
def iterMut (f : Nat → T → T) (s : Separated T P) : Separated T P := ⟨s.inner.iterMut f⟩
/-- ast.rs:1764-1766 `pairs_mut`. -/
def pairsMut (f : Nat → T → T) (g : Nat → P → P) (s : Separated T P) : Separated T P := ⟨s.inner.pairsMut f g⟩
/-- ast.rs:1958-1964 `Index`. -/
def index (s : Separated T P) (i : Nat) : Option T := s.inner.index i
/-- ast.rs:1966-1970 `IndexMut`. -/
def indexMut (i : Nat) (f : T → T) (s : Separated T P) : Option (Separated T P) := (s.inner.indexMut i f).map Separated.mk
/-- ast.rs:1857-1863 `TryFrom<syn::punctuated::Punctuated>`; `none` is `Err` here, not a panic. -/
def tryFrom (p : Punct T P) : Option (Separated T P) :=
  if p.emptyOrTrailing then none else some ⟨p⟩

/-- ast.rs:1797-1808 the loop of `into_first_rest`; `punct` is the separator read last. -/
def firstRestLoop (punct : P) : List (Pair T P) → List (P × T)
  | [] => []
  | .punctuated v next :: ps => (punct, v) :: firstRestLoop next ps
  | .stop v :: _ => [(punct, v)]
/-- ast.rs:1786-1811 `into_first_rest`; `none` = panic (`expect` at 1790, `len` at 1788). -/
def intoFirstRest (s : Separated T P) : Option (T × List (P × T)) :=
  s.len.bind fun _ =>
    match s.inner.pairs with
    | [] => none
    | .stop v :: _ => some (v, [])
    | .punctuated v p :: ps => some (v, firstRestLoop p ps)

/-- ast.rs:1835-1844 the loop of `into_last_rest` with its accumulator `pairs`; falling out of the loop hits `unreachable!`
(1846) = `none`. -/
def lastRestLoop (acc : List (T × P)) : List (Pair T P) → Option (T × List (T × P))
  | [] => none
  | .punctuated v p :: ps => lastRestLoop (acc ++ [(v, p)]) ps
  | .stop v :: _ => some (v, acc)
/-- ast.rs:1831-1847 `into_last_rest`. -/
def intoLastRest (s : Separated T P) : Option (T × List (T × P)) :=
  s.len.bind fun _ => lastRestLoop [] s.inner.pairs

end Separated

/-! ### parsel `Maybe<P, T>` -/

/-- ast.rs:728-731 `Maybe`. -/
structure Maybe (P T : Type) where
  inner : Option (P × T)
  deriving DecidableEq, Repr

namespace Maybe
variable {P T : Type}

/-- ast.rs:734-736 `new`, 807-811 `Default`. -/
def new : Maybe P T := ⟨none⟩
/-- ast.rs:738-748 `as_prefix`, `as_prefix_mut`, `into_prefix`. -/
def intoPrefix (m : Maybe P T) : Option P := m.inner.map fun x => x.1
/-- ast.rs:750-760 `as_ref`, `as_mut`, `into_inner`. -/
def intoInner (m : Maybe P T) : Option T := m.inner.map fun x => x.2
/-- ast.rs:762-772 `as_parts`, `as_parts_mut`, `into_parts`. -/
def intoParts (m : Maybe P T) : Option (P × T) := m.inner
/-- ast.rs:774-784 `into_prefix_iter`, `prefix_iter`, `prefix_iter_mut`, collected. -/
def prefixIter (m : Maybe P T) : List P := m.intoPrefix.toList
/-- ast.rs:786-792 `iter`, `iter_mut`; 842-867 `IntoIterator`, collected. -/
def iter (m : Maybe P T) : List T := m.intoInner.toList
/-- ast.rs:794-804 `into_parts_iter`, `parts_iter`, `parts_iter_mut`, collected. -/
def partsIter (m : Maybe P T) : List (P × T) := m.inner.toList
/-- ast.rs:813-817 `From<Option<(P, T)>>`. -/
def fromOptionParts (o : Option (P × T)) : Maybe P T := ⟨o⟩
/-- ast.rs:819-825 `From<Option<T>>`. -/
def fromOption (dflt : P) (o : Option T) : Maybe P T := ⟨o.map fun t => (dflt, t)⟩
/-- ast.rs:827-831 `From<(P, T)>`. -/
def fromParts (x : P × T) : Maybe P T := ⟨some x⟩
/-- ast.rs:833-840 `From<T>`. -/
def fromValue (dflt : P) (t : T) : Maybe P T := fromParts (dflt, t)
/-- ast.rs:946-951 `ToTokens`, generic in what a token is. -/
def toTokens {X : Type} (f : P → List X) (g : T → List X) (m : Maybe P T) : List X :=
  match m.inner with
  | some (head, tail) => f head ++ g tail
  | none => []

end Maybe

/-! ### parsel `Any<T>` -/

/-- ast.rs:2085-2087 `Any`: a wrapper of `Vec<T>`; `from_iter` 2212, `extend` 2223, `len` 2100, `is_empty` 2104, `get` 2108 and
`index` 2264 forward to the vector. -/
structure AnyV (T : Type) where
  inner : List T
  deriving DecidableEq, Repr

namespace AnyV
variable {T : Type}
/-- ast.rs:2090-2094 `new`. -/
def new : AnyV T := ⟨[]⟩
/-- ast.rs:2211-2220 `FromIterator`. -/
def fromIter (l : List T) : AnyV T := ⟨l⟩
/-- ast.rs:2222-2229 `Extend`. -/
def extend (a : AnyV T) (l : List T) : AnyV T := ⟨a.inner ++ l⟩
/-- ast.rs:2122-2128 `iter`, 2231-2256 `IntoIterator`, collected. -/
def iter (a : AnyV T) : List T := a.inner
/-- ast.rs:2100-2102 `len`. -/
def len (a : AnyV T) : Nat := a.inner.length
/-- ast.rs:2104-2106 `is_empty`. -/
def isEmpty (a : AnyV T) : Bool := a.inner.isEmpty
/-- ast.rs:2108-2120 `get`; 2258-2276 `index` (where `none` is a panic). -/
def get (a : AnyV T) (i : Nat) : Option T := a.inner[i]?
/-- ast.rs:2333-2335 `ToTokens` (`append_all`). -/
def toTokens {X : Type} (f : T → List X) (a : AnyV T) : List X := a.inner.flatMap f
end AnyV

/-! ### Associative trees -/

/-- ast.rs:3360-3373 `LeftAssoc<O, R>`. -/
inductive LeftAssoc (O R : Type) where
  | binary (lhs : LeftAssoc O R) (op : O) (rhs : R)
  | rhs (r : R)
  deriving DecidableEq, Repr

/-- ast.rs:3553-3566 `RightAssoc<O, L>`. -/
inductive RightAssoc (O L : Type) where
  | binary (lhs : L) (op : O) (rhs : RightAssoc O L)
  | lhs (l : L)
  deriving DecidableEq, Repr

/-- ast.rs:3433-3442 the tree-building loop of `LeftAssoc::parse`. -/
def leftLoop {O R : Type} (expr : LeftAssoc O R) : List (O × R) → LeftAssoc O R
  | [] => expr
  | (op, rhs) :: rest => leftLoop (.binary expr op rhs) rest

/-- ast.rs:3626-3635 the tree-building loop of `RightAssoc::parse` (over the already reversed list). -/
def rightLoop {O L : Type} (expr : RightAssoc O L) : List (L × O) → RightAssoc O L
  | [] => expr
  | (lhs, op) :: rest => rightLoop (.binary lhs op expr) rest

/-- ast.rs:3431-3444 what `LeftAssoc::parse` does with the parsed sequence (`none` = panic). -/
def leftAssocOf {O R : Type} (seq : Separated R O) : Option (LeftAssoc O R) :=
  seq.intoFirstRest.map fun fr => leftLoop (.rhs fr.1) fr.2

/-- ast.rs:3624-3637 what `RightAssoc::parse` does with the parsed sequence (`none` = panic). -/
def rightAssocOf {O L : Type} (seq : Separated L O) : Option (RightAssoc O L) :=
  seq.intoLastRest.map fun lr => rightLoop (.lhs lr.1) lr.2.reverse

/-- ast.rs:3453-3464 `impl ToTokens for LeftAssoc`, generic in what a token is. -/
def LeftAssoc.toTokens {O R X : Type} (f : O → List X) (g : R → List X) : LeftAssoc O R → List X
  | .binary l op r => l.toTokens f g ++ f op ++ g r
  | .rhs r => g r

/-- ast.rs:3646-3657 `impl ToTokens for RightAssoc`, generic in what a token is. -/
def RightAssoc.toTokens {O L X : Type} (f : O → List X) (g : L → List X) : RightAssoc O L → List X
  | .binary l op r => g l ++ f op ++ r.toTokens f g
  | .lhs l => g l

/-! ### parsel `Either<L, R>` -/

/-- ast.rs:3683-3686 `Either`. -/
inductive Either (L R : Type) where
  | left (l : L)
  | right (r : R)
  deriving DecidableEq, Repr

namespace Either
variable {L R T U : Type}

/-- ast.rs:3689-3694 `left`. -/
def left? : Either L R → Option L
  | .left l => some l
  | .right _ => none
/-- ast.rs:3696-3701 `right`. -/
def right? : Either L R → Option R
  | .left _ => none
  | .right r => some r
/-- ast.rs:3703-3705 `is_left`. -/
def isLeft : Either L R → Bool
  | .left _ => true
  | .right _ => false
/-- ast.rs:3707-3709 `is_right`. -/
def isRight : Either L R → Bool
  | .left _ => false
  | .right _ => true
/-- ast.rs:3718-3723 `flip`. -/
def flip : Either L R → Either R L
  | .left l => .right l
  | .right r => .left r
/-- ast.rs:3751-3760 `map`. -/
def map (f : L → T) (g : R → U) : Either L R → Either T U
  | .left l => .left (f l)
  | .right r => .right (g r)
/-- ast.rs:3777-3782 `transpose` for `Option`. -/
def transpose : Either (Option L) (Option R) → Option (Either L R)
  | .left l => l.map .left
  | .right r => r.map .right
/-- ast.rs:3786-3791 `transpose` for `Result` (`E` is the error type). -/
def transposeResult {E : Type} : Either (Except E L) (Except E R) → Except E (Either L R)
  | .left l => l.map .left
  | .right r => r.map .right
/-- ast.rs:3795-3800 `into_inner`; 3803-3839 `as_ref`, `as_mut`, `deref`, `deref_mut`. -/
def intoInner : Either T T → T
  | .left l => l
  | .right r => r
/-- ast.rs:3988-3993 `ToTokens`, generic in what a token is. -/
def toTokens {X : Type} (f : L → List X) (g : R → List X) : Either L R → List X
  | .left l => f l
  | .right r => g r

end Either

/-- The operations of the Rust traits `Iterator` and `DoubleEndedIterator` that `Either` forwards (3841-3885); a method
taking `&mut self` returns the new iterator state as well. -/
structure IterOps (I A : Type) where
  next : I → Option A × I
  nextBack : I → Option A × I
  nth : I → Nat → Option A × I
  last : I → Option A
  count : I → Nat
  sizeHint : I → Nat × Option Nat

/-- Updating the payload of an `Either` through `as_mut().map(..)` (3725-3760): results on one side, new state in place. -/
def Either.mapMut {L R A B : Type} (f : L → A × L) (g : R → B × R) :
    Either L R → Either A B × Either L R
  | .left l => (.left (f l).1, .left (f l).2)
  | .right r => (.right (g r).1, .right (g r).2)

/-- ast.rs:3841-3885 `impl Iterator / DoubleEndedIterator for Either`. -/
def eitherIter {L R A B : Type} (il : IterOps L A) (ir : IterOps R B) : IterOps (Either L R) (Either A B) where
  next e := let r := e.mapMut il.next ir.next; (r.1.transpose, r.2)
  nextBack e := let r := e.mapMut il.nextBack ir.nextBack; (r.1.transpose, r.2)
  nth e n := let r := e.mapMut (il.nth · n) (ir.nth · n); (r.1.transpose, r.2)
  last e := (e.map il.last ir.last).transpose
  count e := (e.map il.count ir.count).intoInner
  sizeHint e := (e.map il.sizeHint ir.sizeHint).intoInner

/-- ast.rs:3901-3915 `impl Extend for Either`: extends the active side. -/
def Either.extend {L R T : Type} (fl : L → List T → L) (fr : R → List T → R) : Either L R → List T → Either L R
  | .left l, ts => .left (fl l ts)
  | .right r, ts => .right (fr r ts)

/-! ### Comparison of keyword values and of literals -/

/-- EXTERNAL `Ord for str`: lexicographic (the byte order of UTF-8 is the order of code points). -/
def cmpText : List Char → List Char → Ordering
  | [], [] => .eq
  | [], _ :: _ => .lt
  | _ :: _, [] => .gt
  | a :: as, b :: bs => if a.val.toNat < b.val.toNat then .lt else if b.val.toNat < a.val.toNat then .gt else cmpText as bs

/-- ast.rs:290-293 a value of the keyword type generated for the spelling `kw`: only its location (`Sp` stands for `Span`). -/
structure KeywordV (Sp : Type) (kw : List Char) where
  span : Sp

namespace KeywordV
variable {Sp : Type} {kw : List Char}
/-- ast.rs:300-302 `as_str`, 329-333 `AsRef<str>`. -/
def asStr (_ : KeywordV Sp kw) : List Char := kw
/-- ast.rs:336-343 `PartialEq<T: AsRef<str>>`; `other` is `other.as_ref()`. -/
def eqStr (k : KeywordV Sp kw) (other : List Char) : Bool := decide (k.asStr = other)
/-- ast.rs:347-356 `PartialOrd<T: AsRef<str>>`. -/
def partialCmp (k : KeywordV Sp kw) (other : List Char) : Option Ordering := some (cmpText k.asStr other)
/-- ast.rs:358-362 `Ord`. -/
def cmp (_ _ : KeywordV Sp kw) : Ordering := .eq
/-- ast.rs:364-366 `Hash`: what is fed to the hasher, here as a list of words. -/
def hash (_ : KeywordV Sp kw) : List Nat := []
end KeywordV

/-- ast.rs:2340-2344 a literal node: value and location (`Sp` stands for `Span`). -/
structure LitV (Sp Raw : Type) where
  value : Raw
  span : Sp

namespace LitV
variable {Sp Raw : Type}
/-- ast.rs:2369-2376 `Default`: the default value at the call site. -/
def default (dflt : Raw) (callSite : Sp) : LitV Sp Raw := ⟨dflt, callSite⟩
/-- ast.rs:2378-2383 `From<raw>`. -/
def fromRaw (callSite : Sp) (v : Raw) : LitV Sp Raw := ⟨v, callSite⟩
/-- ast.rs:2385-2389 `From<Lit> for raw`; 2351-2357 `value`, `into_inner`; 2397-2401 `Borrow<raw>`. -/
def toRaw (l : LitV Sp Raw) : Raw := l.value
/-- ast.rs:2403-2407 `PartialEq<Self>`. -/
def eq (rawEq : Raw → Raw → Bool) (a b : LitV Sp Raw) : Bool := rawEq a.value b.value
/-- ast.rs:2409-2413 `PartialEq<raw>`. -/
def eqRaw (rawEq : Raw → Raw → Bool) (a : LitV Sp Raw) (v : Raw) : Bool := rawEq a.value v
/-- ast.rs:2430-2434 `Ord`. -/
def cmp (rawCmp : Raw → Raw → Ordering) (a b : LitV Sp Raw) : Ordering := rawCmp a.value b.value
/-- ast.rs:2417-2422 `PartialOrd<Self>`. -/
def partialCmp (rawCmp : Raw → Raw → Ordering) (a b : LitV Sp Raw) : Option Ordering := some (cmp rawCmp a b)
/-- ast.rs:2424-2428 `PartialOrd<raw>`. -/
def partialCmpRaw (rawCmp : Raw → Raw → Ordering) (a : LitV Sp Raw) (v : Raw) : Option Ordering := some (rawCmp a.value v)
/-- ast.rs:2436-2440 `Hash`: what is fed to the hasher. -/
def hash (rawHash : Raw → List Nat) (a : LitV Sp Raw) : List Nat := rawHash a.value
end LitV

end Parsel
