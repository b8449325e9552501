import Verif.Proofs.Containers
import Verif.Props.Combinators

/-! Properties of the container types: C27, C28, C39, C50, C54, C55, C56. -/

namespace Parsel
open Spec

variable {T P L R A B X : Type}

/-! #### C27 -/

/-- **C27.** After any history of operations on a sequence that ends in a value, the sequence (if no operation panicked) ends in
a value again; therefore `len`, `first`, `last`, `into_first_rest`, `into_last_rest` do not panic. -/
theorem C27_history (dflt : P) (ops : List (SepOp T P)) (s s' : Separated T P) (hs : EndsInValue s.inner)
    (h : runHistory dflt ops s = some s') :
    EndsInValue s'.inner ∧ s'.len.isSome ∧ s'.first.isSome ∧ s'.last.isSome ∧ s'.intoFirstRest.isSome ∧ s'.intoLastRest.isSome := by
  have hmain : s'.inner.last.isSome = true := by
    rw [endsInValue_iff] at hs
    induction ops generalizing s with
    | nil => injection h with h; rw [← h]; exact hs
    | cons op ops ih =>
      simp only [runHistory] at h
      rcases run_some dflt op s hs with ⟨s1, h1, h2, -⟩ | ⟨h1, -⟩
      · rw [h1] at h; exact ih s1 h2 h
      · rw [h1] at h; cases h
  refine ⟨(endsInValue_iff _).2 hmain, ?_⟩
  obtain ⟨v0, rest, hr⟩ := exists_ofFirstRest s'.inner hmain
  have hs' : s' = ⟨ofFirstRest [] v0 rest⟩ := by rw [← hr]
  have hv : s'.inner.values ≠ [] := by
    intro h0
    have := punct_len_values s'.inner
    rw [h0, hr, ofFirstRest_len] at this; simp at this
  refine ⟨?_, ?_, ?_, ?_, ?_⟩
  · simp [hs', Separated.len, ofFirstRest_len]
  · simpa [Separated.first, Punct.first] using hv
  · simpa [Separated.last, Punct.lastValue] using hv
  · simp [hs', intoFirstRest_ofFirstRest]
  · simp [hs', intoLastRest_ofFirstRest]

/-- **C27** (panics). On a sequence that ends in a value the only operations that panic are `insert` and indexing beyond the end; every other
one succeeds and changes the sequence of values and separators as documented. -/
theorem C27_step (dflt : P) (op : SepOp T P) (s : Separated T P) (hs : EndsInValue s.inner) :
    (op.run dflt s = none ↔ (∃ i v, op = .insert i v ∧ s.inner.values.length < i) ∨ ∃ i f, op = .indexMut i f ∧ s.inner.values.length ≤ i) ∧
    (∀ s', op.run dflt s = some s' → flat s'.inner.pairs = op.effect dflt (flat s.inner.pairs)) := by
  rw [endsInValue_iff] at hs
  rcases run_some dflt op s hs with ⟨s1, h1, h2, h3⟩ | ⟨h1, h2⟩
  · rw [h1]
    refine ⟨?_, ?_⟩
    · simp only [reduceCtorEq, false_iff]
      rintro (⟨i, v, rfl, hlt⟩ | ⟨i, f, rfl, hlt⟩)
      · rw [← punct_len_values] at hlt
        simp only [SepOp.run, Separated.insert, Punct.insert] at h1
        rw [if_neg (by omega)] at h1
        cases h1
      · rw [← punct_len_values] at hlt
        have hl : s.inner.len = s.inner.inner.length + 1 := by rw [Punct.len, if_pos hs]
        simp only [SepOp.run, Separated.indexMut, Punct.indexMut] at h1
        rw [if_neg (by omega), if_neg (by omega), List.getElem?_eq_none (by omega)] at h1
        cases h1
    · intro s' h; injection h with h; rw [← h]; exact h3
  · rw [h1]
    refine ⟨?_, by intro s' h; cases h⟩
    simp only [true_iff]
    rw [← punct_len_values]
    exact h2

/-- **C27** (`TryFrom`). Conversion from a punctuated sequence accepts exactly those that are non-empty without trailing separator. -/
theorem C27_try_from (p : Punct T P) (s : Separated T P) :
    Separated.tryFrom p = some s ↔ EndsInValue p ∧ s.inner = p := by
  rw [endsInValue_iff]
  unfold Separated.tryFrom Punct.emptyOrTrailing
  obtain ⟨s⟩ := s
  cases p.last <;> simp [eq_comm]

/-- **C27** (parsing). Every parsed `Separated` ends in a value. -/
theorem C27_parsed (fuel : Nat) (t : Parser T) (p : Parser P) (s s' : PState) (r : Separated T P)
    (h : separatedParse fuel t p s = .ok r s') : EndsInValue r.inner :=
  (endsInValue_iff _).2 ((C19_separated_ok t p s s' r).1 ⟨fuel, h⟩).1

/-- A history with most operations, starting from a converted sequence. -/
example : ∃ s s', Separated.tryFrom (⟨[(1, 'a')], some 2⟩ : Punct Nat Char) = some s ∧
    runHistory ',' [.insert 0 9, .push ';' 3, .pushValue 4, .extendValues [5, 6], .extendPairs [('!', 7)],
      .firstMut (· + 1), .lastMut (· * 2), .indexMut 1 (· + 20), .pairsMut (fun i n => n + i) fun _ _ => '.'] s = some s' ∧
    s'.inner.values = [10, 22, 4, 6, 8, 10, 12, 21] :=
  ⟨_, _, rfl, rfl, rfl⟩

/-! #### C28 -/

/-- **C28.** For a sequence that ends in a value, both decompositions return everything in order, and agree with `first`, `last`
and `len`. -/
theorem C28_decompositions (s : Separated T P) (hs : EndsInValue s.inner) :
    (∃ f rest, s.intoFirstRest = some (f, rest) ∧
      flat s.inner.pairs = .inl f :: rest.flatMap (fun x => [.inr x.1, .inl x.2]) ∧
      s.first = some f ∧ s.len = some (rest.length + 1)) ∧
    (∃ l rest, s.intoLastRest = some (l, rest) ∧
      flat s.inner.pairs = rest.flatMap (fun x => [.inl x.1, .inr x.2]) ++ [.inl l] ∧
      s.last = some l ∧ s.len = some (rest.length + 1)) := by
  rw [endsInValue_iff] at hs
  obtain ⟨v0, rest, hr⟩ := exists_ofFirstRest s.inner hs
  have hs' : s = ⟨ofFirstRest [] v0 rest⟩ := by rw [← hr]
  have hflat := flat_ofFirstRest v0 rest
  have hvals := values_of_flat (ofFirstRest [] v0 rest)
  have hlen : s.len = some (rest.length + 1) := by simp [hs', Separated.len, ofFirstRest_len]
  have hsl : (shiftLast v0 rest).1.length = rest.length := by
    clear hr hs' hflat hvals hlen
    induction rest generalizing v0 with
    | nil => rfl
    | cons x rest ih => simp [shiftLast, ih]
  refine ⟨⟨v0, rest, ?_, ?_, ?_, hlen⟩, ⟨(shiftLast v0 rest).2, (shiftLast v0 rest).1, ?_, ?_, ?_, by rw [hsl]; exact hlen⟩⟩
  · rw [hs']; exact intoFirstRest_ofFirstRest v0 rest
  · rw [hr]; exact hflat
  · rw [hs']; simp [Separated.first, Punct.first, hvals, hflat]
  · rw [hs']; exact intoLastRest_ofFirstRest v0 rest
  · rw [hr, hflat]; exact flat_shiftLast v0 rest
  · rw [hs', Separated.last, Punct.lastValue, hvals, hflat, flat_shiftLast]
    simp

example : EndsInValue (⟨[(1, 'a')], some 2⟩ : Punct Nat Char) ∧
    (Separated.mk (⟨[(1, 'a')], some 2⟩ : Punct Nat Char)).intoFirstRest = some (1, [('a', 2)]) ∧
    (Separated.mk (⟨[(1, 'a')], some 2⟩ : Punct Nat Char)).intoLastRest = some (2, [(1, 'a')]) :=
  ⟨⟨[.inl 1, .inr 'a'], 2, rfl⟩, rfl, rfl⟩

/-! #### C50 -/

/-- **C50.** `flip` exchanges the sides and is its own inverse; exactly one of `left()`, `right()` is present and
`is_left`/`is_right` say which. -/
theorem C50_flip_sides (e : Either L R) :
    e.flip.flip = e ∧ e.flip.left? = e.right? ∧ e.flip.right? = e.left? ∧
    (e.left?.isSome = !e.right?.isSome) ∧ e.isLeft = e.left?.isSome ∧ e.isRight = e.right?.isSome ∧
    (∀ x, e = .left x ↔ e.left? = some x) ∧ (∀ y, e = .right y ↔ e.right? = some y) := by
  cases e <;> simp [Either.flip, Either.left?, Either.right?, Either.isLeft, Either.isRight]

/-- **C50.** `map` is functorial and acts on the active side. -/
theorem C50_map {L' R' L'' R'' : Type} (f : L → L') (g : R → R') (f' : L' → L'') (g' : R' → R'') (e : Either L R) :
    e.map id id = e ∧ (e.map f g).map f' g' = e.map (fun x => f' (f x)) (fun y => g' (g y)) ∧
    (e.map f g).left? = e.left?.map f ∧ (e.map f g).right? = e.right?.map g ∧ (e.map f g).flip = e.flip.map g f := by
  cases e <;> simp [Either.map, Either.left?, Either.right?, Either.flip]

/-- **C50.** `transpose` commutes with the injections; a missing (or failed) side is missing (fails with the same error). -/
theorem C50_transpose {E : Type} (l : Option L) (r : Option R) (el : Except E L) (er : Except E R) :
    (Either.transpose (.left l : Either (Option L) (Option R)) = l.map .left) ∧
    (Either.transpose (.right r : Either (Option L) (Option R)) = r.map .right) ∧
    (∀ x, Either.transposeResult (.left el : Either (Except E L) (Except E R)) = .ok x ↔ ∃ v, el = .ok v ∧ x = .left v) ∧
    (∀ x, Either.transposeResult (.right er : Either (Except E L) (Except E R)) = .ok x ↔ ∃ v, er = .ok v ∧ x = .right v) ∧
    (∀ e, Either.transposeResult (.left el : Either (Except E L) (Except E R)) = .error e ↔ el = .error e) ∧
    (∀ e, Either.transposeResult (.right er : Either (Except E L) (Except E R)) = .error e ↔ er = .error e) := by
  refine ⟨rfl, rfl, ?_, ?_, ?_, ?_⟩
  · intro x; cases el <;> simp [Either.transposeResult, Except.map, eq_comm]
  · intro x; cases er <;> simp [Either.transposeResult, Except.map, eq_comm]
  · intro x; cases el <;> simp [Either.transposeResult, Except.map]
  · intro x; cases er <;> simp [Either.transposeResult, Except.map]

/-- The items left in an `Either` of iterators: those of the active side, wrapped in that side. -/
def Spec.eitherItems (il : L → List A) (ir : R → List B) : Either L R → List (Either A B)
  | .left l => (il l).map .left
  | .right r => (ir r).map .right

/-- **C50.** An `Either` of lawful iterators is a lawful iterator over the items of the active side wrapped in that side: `next`,
`next_back`, `nth`, `last`, `count`, `size_hint` all agree with that list. -/
theorem C50_iterator (ol : IterOps L A) (or : IterOps R B) (il : L → List A) (ir : R → List B)
    (hl : LawfulIter ol il) (hr : LawfulIter or ir) : LawfulIter (eitherIter ol or) (eitherItems il ir) where
  next := by
    rintro (x | x) <;> simp [eitherIter, Either.mapMut, Either.transpose, eitherItems, hl.next, hr.next]
  nextBack := by
    rintro (x | x) <;> simp [eitherIter, Either.mapMut, Either.transpose, eitherItems, hl.nextBack, hr.nextBack]
  nth := by
    rintro (x | x) n <;> simp [eitherIter, Either.mapMut, Either.transpose, eitherItems, hl.nth, hr.nth]
  last := by
    rintro (x | x) <;> simp [eitherIter, Either.map, Either.transpose, eitherItems, hl.last, hr.last]
  count := by
    rintro (x | x) <;> simp [eitherIter, Either.map, Either.intoInner, eitherItems, hl.count, hr.count]
  sizeHint := by
    rintro (x | x)
    · simpa [eitherIter, Either.map, Either.intoInner, eitherItems] using hl.sizeHint x
    · simpa [eitherIter, Either.map, Either.intoInner, eitherItems] using hr.sizeHint x

/-- **C50.** Printing an `Either` prints the active side; extending it extends the active side and keeps the side. -/
theorem C50_print_extend (f : L → List X) (g : R → List X) (fl : L → List T → L) (fr : R → List T → R) (e : Either L R)
    (ts : List T) :
    (∀ x, e = .left x → e.toTokens f g = f x ∧ e.extend fl fr ts = .left (fl x ts)) ∧
    (∀ y, e = .right y → e.toTokens f g = g y ∧ e.extend fl fr ts = .right (fr y ts)) := by
  cases e <;> simp [Either.toTokens, Either.extend]

/-- Lists are lawful iterators, so the hypotheses of `C50_iterator` can be met. -/
def exListIter : IterOps (List Nat) Nat where
  next l := (l.head?, l.tail)
  nextBack l := (l.getLast?, l.dropLast)
  nth l n := (l[n]?, l.drop (n + 1))
  last l := l.getLast?
  count l := l.length
  sizeHint l := (l.length, some l.length)
example : LawfulIter exListIter id :=
  ⟨fun _ => ⟨rfl, rfl⟩, fun _ => ⟨rfl, rfl⟩, fun _ _ => ⟨rfl, rfl⟩, fun _ => rfl, fun _ => rfl, fun _ => ⟨Nat.le_refl _, fun u h => by
    injection h with h; rw [← h]; exact Nat.le_refl _⟩⟩

/-! #### C54 -/

/-- **C54.** Values of one keyword type are all equal, ordered `Equal` and hash alike, whatever their locations; comparison with a
string (of which another value of the type is a special case) is comparison with the spelling; equality and ordering agree;
the ordering is antisymmetric. -/
theorem C54_keyword_compare {Sp : Type} (kw other : List Char) (a b : KeywordV Sp kw) :
    a.eqStr b.asStr = true ∧ a.cmp b = .eq ∧ a.partialCmp b.asStr = some .eq ∧ a.hash = b.hash ∧
    (a.eqStr other = true ↔ kw = other) ∧ (a.partialCmp other = some .eq ↔ a.eqStr other = true) ∧
    a.partialCmp other = b.partialCmp other ∧
    a.partialCmp other = some (cmpText other kw).swap := by
  refine ⟨?_, rfl, ?_, rfl, ?_, ?_, rfl, ?_⟩
  · simp [KeywordV.eqStr, KeywordV.asStr]
  · simp [KeywordV.partialCmp, KeywordV.asStr, (cmpText_eq kw kw).2 rfl]
  · exact decide_eq_true_iff
  · rw [KeywordV.partialCmp, Option.some.injEq, cmpText_eq]; exact decide_eq_true_iff.symm
  · rw [KeywordV.partialCmp, KeywordV.asStr, cmpText_swap]

example : (KeywordV.mk 3 : KeywordV Nat "if".toList).eqStr "if".toList = true ∧
    (KeywordV.mk 3 : KeywordV Nat "if".toList).partialCmp "in".toList = some .lt := ⟨rfl, rfl⟩

/-! #### C39 -/

/-- **C39.** If equality, order and hashing of the raw values agree (as they do for `bool`, `u8`, `i64`, `u64`, `NotNan<f64>`, `char`,
`String`, `Vec<u8>`), so do those of the literals: none depends on locations, equal literals hash alike, `Equal` means equal,
the order is antisymmetric and transitive when that of the values is, and comparison with a raw value is comparison with the
literal made of it. -/
theorem C39_literal_compare {Sp Raw : Type} (eq : Raw → Raw → Bool) (cmp : Raw → Raw → Ordering) (hash : Raw → List Nat)
    (h_eq_cmp : ∀ x y, cmp x y = .eq ↔ eq x y = true) (h_hash : ∀ x y, eq x y = true → hash x = hash y)
    (h_swap : ∀ x y, cmp y x = (cmp x y).swap) (callSite : Sp) (a b c : LitV Sp Raw) (s1 s2 : Sp) :
    (a.eq eq b = true ↔ eq a.value b.value = true) ∧
    ((LitV.mk a.value s1).eq eq (LitV.mk b.value s2) = a.eq eq b) ∧
    ((LitV.mk a.value s1).cmp cmp (LitV.mk b.value s2) = a.cmp cmp b) ∧
    ((LitV.mk a.value s1).hash hash = a.hash hash) ∧
    (a.cmp cmp b = .eq ↔ a.eq eq b = true) ∧ (a.eq eq b = true → a.hash hash = b.hash hash) ∧
    (b.cmp cmp a = (a.cmp cmp b).swap) ∧ (a.partialCmp cmp b = some (a.cmp cmp b)) ∧
    (a.eqRaw eq b.toRaw = a.eq eq b) ∧ (a.partialCmpRaw cmp b.toRaw = a.partialCmp cmp b) ∧
    (a.eq eq (LitV.fromRaw callSite a.toRaw) = a.eq eq a) ∧
    ((∀ x y z, cmp x y = .lt → cmp y z = .lt → cmp x z = .lt) → a.cmp cmp b = .lt → b.cmp cmp c = .lt → a.cmp cmp c = .lt) := by
  refine ⟨Iff.rfl, rfl, rfl, rfl, h_eq_cmp _ _, h_hash _ _, h_swap _ _, rfl, rfl, rfl, rfl, ?_⟩
  intro h; exact h _ _ _

/-- The hypotheses are met, for instance by strings. -/
example : ∀ x y : List Char, (cmpText x y = .eq ↔ decide (x = y) = true) ∧ (cmpText y x = (cmpText x y).swap) :=
  fun x y => ⟨by simp [cmpText_eq], cmpText_swap x y⟩

/-! #### C55 -/

/-- **C55.** The views of a `Maybe` are projections of one optional pair; the iterators yield zero or one item accordingly; printing
is the prefix then the rest, or nothing. -/
theorem C55_maybe_views (m : Maybe P T) (f : P → List X) (g : T → List X) :
    (∀ p t, m.intoParts = some (p, t) ↔ m.intoPrefix = some p ∧ m.intoInner = some t) ∧
    (m.intoParts = none ↔ m.intoPrefix = none) ∧ (m.intoParts = none ↔ m.intoInner = none) ∧
    m.prefixIter = m.intoPrefix.toList ∧ m.iter = m.intoInner.toList ∧ m.partsIter = m.intoParts.toList ∧
    m.prefixIter.zip m.iter = m.partsIter ∧
    (m.intoParts = none → m.toTokens f g = []) ∧ (∀ p t, m.intoParts = some (p, t) → m.toTokens f g = f p ++ g t) := by
  obtain ⟨_ | ⟨p, t⟩⟩ := m <;>
    simp [Maybe.intoParts, Maybe.intoPrefix, Maybe.intoInner, Maybe.prefixIter, Maybe.iter, Maybe.partsIter, Maybe.toTokens]

/-- **C55** (conversions). Building a `Maybe` and taking it apart gives back what was put in. -/
theorem C55_maybe_conversions (dflt : P) (x : P × T) (t : T) (o : Option (P × T)) (ot : Option T) (m : Maybe P T) :
    (Maybe.new : Maybe P T).intoParts = none ∧ (Maybe.fromParts x).intoParts = some x ∧
    (Maybe.fromOptionParts o).intoParts = o ∧ Maybe.fromOptionParts m.intoParts = m ∧
    (Maybe.fromValue dflt t).intoParts = some (dflt, t) ∧ (Maybe.fromOption dflt ot).intoInner = ot ∧
    (Maybe.fromOption dflt ot).intoPrefix = ot.map fun _ => dflt := by
  refine ⟨rfl, rfl, rfl, rfl, rfl, ?_, ?_⟩ <;> cases ot <;> rfl

/-! #### C56 -/

/-- **C56.** Collecting values into a `Punctuated` never panics and gives the values in order with default separators between them
and none at the end. -/
theorem C56_collect_values (dflt : P) (vs : List T) :
    ∃ s, Punct.fromValues dflt vs = some s ∧ s.values = vs ∧ (vs ≠ [] → EndsInValue s) ∧
      ∀ q, Sum.inr q ∈ flat s.pairs → q = dflt := by
  cases vs with
  | nil => exact ⟨_, rfl, rfl, by simp, by simp [flat, Punct.empty, Punct.pairs]⟩
  | cons v vs =>
    refine ⟨_, fromValues_aux dflt vs v, ?_, ?_, ?_⟩
    · rw [values_of_flat, flat_ofFirstRest]
      simp only [List.flatMap_map, List.filterMap_cons_some (f := Sum.getLeft?) (a := Sum.inl v) (b := v) rfl, List.cons.injEq,
        true_and]
      induction vs with
      | nil => rfl
      | cons w vs ih =>
        simp only [List.flatMap_cons, List.cons_append, List.nil_append]
        exact congrArg (w :: ·) ih
    · intro _; rw [endsInValue_iff]; exact ofFirstRest_last_isSome _ _ _
    · intro q hq
      rw [flat_ofFirstRest] at hq
      have : (∃ x, x ∈ vs) ∧ dflt = q := by simpa [List.mem_flatMap] using hq
      exact this.2.symm

/-- **C56.** Collecting pairs gives those pairs back in order; it panics exactly if something follows an unpunctuated item. -/
theorem C56_collect_pairs (ps : List (Pair T P)) :
    (∀ s, Punct.fromPairs ps = some s → s.pairs = ps) ∧
    (Punct.fromPairs ps = none ↔ ∃ pre t x post, ps = pre ++ .stop t :: x :: post) := by
  have := doExtend_snoc ps (Punct.empty : Punct T P) rfl
  simpa [Punct.fromPairs, Punct.empty, Punct.pairs] using this

/-- **C56.** Taking apart and collecting again is the identity (in particular it never panics). -/
theorem C56_roundtrip (s : Punct T P) : Punct.fromPairs s.pairs = some s := by
  obtain ⟨h1, h2⟩ := C56_collect_pairs s.pairs
  cases h : Punct.fromPairs s.pairs with
  | some s' => rw [pairs_injective (h1 s' h)]
  | none =>
    obtain ⟨pre, t, x, post, hp⟩ := h2.1 h
    exfalso
    have : ∀ (inner : List (T × P)) (last : Option T) (pre : List (Pair T P)),
        (Punct.mk inner last).pairs = pre ++ .stop t :: x :: post → False := by
      intro inner
      induction inner with
      | nil =>
        intro last pre h
        have := congrArg List.length h
        cases last <;> simp [Punct.pairs] at this
        omega
      | cons y inner ih =>
        intro last pre h
        cases pre with
        | nil => simp [Punct.pairs] at h
        | cons a pre =>
          refine ih last pre ?_
          simpa [Punct.pairs] using (List.cons.inj (by simpa [Punct.pairs] using h)).2
    exact this s.inner s.last pre hp

/-- **C56.** `len`, `is_empty`, `first`, `last`, indexing agree with iteration; printing is the interleaving of values and
separators. -/
theorem C56_views (s : Punct T P) (f : T → List X) (g : P → List X) :
    s.values = (flat s.pairs).filterMap Sum.getLeft? ∧ s.len = s.values.length ∧ (s.isEmpty = true ↔ s.values = []) ∧
    s.first = s.values.head? ∧ s.lastValue = s.values.getLast? ∧ (∀ i, s.index i = s.values[i]?) ∧
    s.toTokens f g = (flat s.pairs).flatMap (Sum.elim f g) := by
  refine ⟨values_of_flat s, punct_len_values s, ?_, rfl, rfl, punct_index_values s, ?_⟩
  · unfold Punct.isEmpty Punct.values
    cases s.last <;> simp
  · unfold Punct.toTokens
    generalize s.pairs = ps
    induction ps with
    | nil => rfl
    | cons p ps ih => cases p <;> simp [flat, ih] <;> simpa [flat] using ih

/-- **C56** (changing items in place). Also if there is a separator at the end: `iter_mut`, `pairs_mut` change each value (each separator) in its place;
`first_mut`, `last_mut`, indexing change just the first, the last, the `i`-th value, and give nothing (panic) exactly if there is none. -/
theorem C56_changed (s : Punct T P) (f : Nat → T → T) (g : Nat → P → P) (h : T → T) (i : Nat) :
    flat (s.iterMut f).pairs = (flat s.pairs).mapIdx (fun j => change (f (j / 2)) id) ∧
    flat (s.pairsMut f g).pairs = (flat s.pairs).mapIdx (fun j => change (f (j / 2)) (g (j / 2))) ∧
    ((s.firstMut h = none ↔ s.values = []) ∧
      ∀ s', s.firstMut h = some s' → flat s'.pairs = (flat s.pairs).mapIdx fun j => if j = 0 then change h id else id) ∧
    ((s.lastMut h = none ↔ s.values = []) ∧
      ∀ s', s.lastMut h = some s' → flat s'.pairs = (flat s.pairs).mapIdx fun j => if j = 2 * (s.len - 1) then change h id else id) ∧
    ((s.indexMut i h = none ↔ s.len ≤ i) ∧
      ∀ s', s.indexMut i h = some s' → flat s'.pairs = (flat s.pairs).mapIdx fun j => if j = 2 * i then change h id else id) := by
  have idx : ∀ i, i < s.len → flat (s.pairsMut (fun j t => if j = i then h t else t) fun _ p => p).pairs =
      (flat s.pairs).mapIdx fun j => if j = 2 * i then change h id else id := by
    intro i _
    refine flat_pairsMut _ _ s _ (fun j t _ => ?_) (fun j p => ?_)
    · by_cases h : j = i
      · rw [if_pos (by omega), if_pos h]; rfl
      · rw [if_neg (by omega), if_neg h]; rfl
    · split <;> rfl
  have keep : ∀ (l : List (T × P)) (i : Nat), l.length ≤ i → (l.mapIdx fun j tp => (if j = i then h tp.1 else tp.1, tp.2)) = l := by
    intro l i hi
    apply List.ext_getElem
    · simp
    · intro j h1 h2
      rw [List.getElem_mapIdx, if_neg (by omega)]
  have setAt : ∀ (l : List (T × P)) (i : Nat) (tp : T × P), l[i]? = some tp →
      l.set i (h tp.1, tp.2) = l.mapIdx fun j tp => (if j = i then h tp.1 else tp.1, tp.2) := by
    intro l i tp e
    rw [set_eq_mapIdx (fun tp => (h tp.1, tp.2)) l i _ e]
    congr 1
    funext j x
    by_cases h : j = i
    · rw [if_pos h, if_pos h]
    · rw [if_neg h, if_neg h]
  have key : ∀ i, (s.indexMut i h = none ↔ s.len ≤ i) ∧
      ∀ s', s.indexMut i h = some s' → s' = s.pairsMut (fun j t => if j = i then h t else t) fun _ p => p := by
    intro i
    obtain ⟨inner, last⟩ := s
    cases last with
    | none =>
      have hlen : (Punct.mk inner (none : Option T)).len = inner.length := rfl
      simp only [Punct.indexMut, hlen, Punct.pairsMut, Option.map_none]
      by_cases h0 : inner.length = 0
      · rw [if_pos h0]; exact ⟨⟨fun _ => by omega, fun _ => rfl⟩, fun _ h => by cases h⟩
      · rw [if_neg h0]
        cases e : inner[i]? with
        | none =>
          have := List.getElem?_eq_none_iff.mp e
          rw [Option.map_none, ite_self]
          exact ⟨⟨fun _ => this, fun _ => rfl⟩, fun _ h => by cases h⟩
        | some tp =>
          have := (List.getElem?_eq_some_iff.mp e).1
          rw [Option.map_some, ite_self, setAt _ _ _ e]
          exact ⟨⟨(fun h => by cases h), (fun h => by omega)⟩, fun s' h => by injection h with h; exact h.symm⟩
    | some l =>
      have hlen : (Punct.mk inner (some l)).len = inner.length + 1 := rfl
      simp only [Punct.indexMut, hlen, Punct.pairsMut, Option.map_some, Nat.add_sub_cancel]
      rw [if_neg (by omega)]
      by_cases h0 : i = inner.length
      · subst h0
        rw [if_pos rfl, if_pos rfl, keep _ _ (Nat.le_refl _)]
        exact ⟨⟨(fun h => by cases h), (fun h => by omega)⟩, fun s' h => by injection h with h; exact h.symm⟩
      · rw [if_neg h0, if_neg (fun h => h0 h.symm)]
        cases e : inner[i]? with
        | none =>
          have := List.getElem?_eq_none_iff.mp e
          exact ⟨⟨fun _ => by omega, fun _ => rfl⟩, fun _ h => by cases h⟩
        | some tp =>
          have := (List.getElem?_eq_some_iff.mp e).1
          rw [Option.map_some, setAt _ _ _ e]
          exact ⟨⟨(fun h => by cases h), (fun h => by omega)⟩, fun s' h => by injection h with h; exact h.symm⟩
  have hlenv := punct_len_values s
  refine ⟨?_, ?_, ⟨?_, ?_⟩, ⟨?_, ?_⟩, (key i).1, ?_⟩
  · refine flat_pairsMut f (fun _ p => p) s _ (fun i t _ => ?_) (fun i p => rfl)
    rw [show 2 * i / 2 = i by omega]; rfl
  · refine flat_pairsMut f g s _ (fun i t _ => ?_) (fun i p => ?_)
    · rw [show 2 * i / 2 = i by omega]; rfl
    · rw [show (2 * i + 1) / 2 = i by omega]; rfl
  · obtain ⟨inner, last⟩ := s
    cases inner with
    | cons x inner => simp [Punct.firstMut, Punct.values]
    | nil => cases last <;> simp [Punct.firstMut, Punct.values]
  · intro s' e
    obtain ⟨inner, last⟩ := s
    cases inner with
    | cons x inner =>
      obtain ⟨t, p⟩ := x
      simp only [Punct.firstMut, Option.some.injEq] at e
      subst e
      have := idx 0 (by simp only [Punct.len, List.length_cons]; omega)
      rw [← show (2 * 0 = 0) from rfl] 
      rw [← this]
      congr 2
      simp only [Punct.pairsMut, Punct.mk.injEq, List.mapIdx_cons, if_true, List.length_cons, Nat.add_eq_zero_iff, Nat.succ_ne_self, and_false, if_false, Option.map_id']
      exact ⟨by rw [List.cons.injEq]; exact ⟨rfl, (List.ext_getElem (by simp) (by intros; simp))⟩, trivial⟩
    | nil =>
      cases last with
      | none => simp [Punct.firstMut] at e
      | some l =>
        simp only [Punct.firstMut, Option.some.injEq] at e
        subst e
        exact idx 0 (by simp [Punct.len])
  · obtain ⟨inner, last⟩ := s
    cases last with
    | some l => simp [Punct.lastMut, Punct.values]
    | none => simp [Punct.lastMut, Punct.values]
  · intro s' e
    obtain ⟨inner, last⟩ := s
    cases last with
    | some l =>
      simp only [Punct.lastMut, Option.some.injEq] at e
      subst e
      have := idx inner.length (by simp [Punct.len])
      simp only [Punct.pairsMut, keep _ _ (Nat.le_refl _), Option.map_some, if_true] at this
      exact this
    | none =>
      simp only [Punct.lastMut] at e
      cases hl : inner.getLast? with
      | none => rw [hl] at e; cases e
      | some tp =>
        rw [hl] at e
        simp only [Option.map_some, Option.some.injEq] at e
        subst e
        obtain ⟨ini, rfl⟩ := List.getLast?_eq_some_iff.mp hl
        have hn : (Punct.mk (ini ++ [tp]) (none : Option T)).len - 1 = ini.length := by simp [Punct.len]
        have := idx ini.length (by simp [Punct.len])
        rw [hn, ← this]
        congr 2
        simp only [Punct.pairsMut, Punct.mk.injEq, Option.map_none, and_true, List.dropLast_concat, List.mapIdx_append, keep _ _ (Nat.le_refl _), List.mapIdx_cons, List.mapIdx_nil,
          Nat.zero_add, if_true]
  · intro s' e
    rw [(key i).2 s' e]
    refine idx i ?_
    refine Nat.lt_of_not_le fun hi => ?_
    rw [(key i).1.mpr hi] at e
    cases e

/-- **C56** (adding items). `push_value` panics exactly if the sequence ends in a value, `push_punct` exactly if it does not; `push` and `insert` add a default
separator where one is needed (`insert` panics exactly beyond the end); `extend` with values adds them with default separators between them and before the first one
if the sequence ends in a value; `extend` with pairs adds the pairs, after a default separator if the sequence ends in a value (even if there are no pairs), and
panics exactly if a pair without separator is not the last one. -/
theorem C56_added (dflt : P) (s : Punct T P) (v : T) (p : P) (i : Nat) (vs : List T) (ps : List (Pair T P)) :
    ((s.pushValue v = none ↔ EndsInValue s) ∧ ∀ s', s.pushValue v = some s' → flat s'.pairs = flat s.pairs ++ [.inl v]) ∧
    ((s.pushPunct p = none ↔ ¬ EndsInValue s) ∧ ∀ s', s.pushPunct p = some s' → flat s'.pairs = flat s.pairs ++ [.inr p]) ∧
    (∃ s', s.push dflt v = some s' ∧ (EndsInValue s → flat s'.pairs = flat s.pairs ++ [.inr dflt, .inl v]) ∧ (¬ EndsInValue s → flat s'.pairs = flat s.pairs ++ [.inl v])) ∧
    ((s.insert dflt i v = none ↔ s.len < i) ∧ ∀ s', s.insert dflt i v = some s' → (i = s.len → s.push dflt v = some s') ∧
      (i < s.len → flat s'.pairs = (flat s.pairs).take (2 * i) ++ [.inl v, .inr dflt] ++ (flat s.pairs).drop (2 * i))) ∧
    (∃ s', s.extendValues dflt vs = some s' ∧ (EndsInValue s → flat s'.pairs = flat s.pairs ++ vs.flatMap fun v => [.inr dflt, .inl v]) ∧
      (¬ EndsInValue s → flat s'.pairs = flat s.pairs ++ (vs.flatMap fun v => [.inr dflt, .inl v]).tail)) ∧
    ((s.extendPairs dflt ps = none ↔ ∃ pre t x post, ps = pre ++ .stop t :: x :: post) ∧ ∀ s', s.extendPairs dflt ps = some s' →
      (EndsInValue s → flat s'.pairs = flat s.pairs ++ .inr dflt :: flat ps) ∧ (¬ EndsInValue s → flat s'.pairs = flat s.pairs ++ flat ps)) := by
  have he := endsInValue_iff (s := s)
  obtain ⟨inner, last⟩ := s
  cases last with
  | some l =>
    have hv : EndsInValue (Punct.mk inner (some l)) := he.mpr rfl
    have hlen : (Punct.mk inner (some l)).len = inner.length + 1 := rfl
    refine ⟨⟨⟨fun _ => hv, fun _ => rfl⟩, fun s' e => by simp [Punct.pushValue, Punct.emptyOrTrailing] at e⟩,
      ⟨⟨fun e => by simp [Punct.pushPunct] at e, fun e => absurd hv e⟩, ?_⟩, ⟨_, rfl, fun _ => ?_, fun e => absurd hv e⟩, ⟨?_, ?_⟩, ?_, ⟨?_, ?_⟩⟩
    · intro s' e
      simp only [Punct.pushPunct, Option.some.injEq] at e
      subst e
      rw [flat_pairs, flat_pairs]; simp
    · rw [flat_pairs, flat_pairs]; simp
    · simp only [Punct.insert, hlen]
      by_cases h1 : i ≤ inner.length + 1
      · rw [if_pos h1]
        refine ⟨fun e => ?_, fun e => by omega⟩
        split at e
        · simp [Punct.push, Punct.emptyOrTrailing, Punct.pushPunct, Punct.pushValue] at e
        · cases e
      · rw [if_neg h1]; exact ⟨fun _ => by omega, fun _ => rfl⟩
    · intro s' e
      simp only [Punct.insert, hlen] at e
      refine ⟨fun h => ?_, fun h => ?_⟩
      · rw [if_pos (by omega), if_pos (by omega)] at e; exact e
      · rw [if_pos (by omega), if_neg (by omega)] at e
        injection e with e
        subst e
        rw [flat_pairs, flat_pairs]
        rw [List.take_append_of_le_length (by rw [length_flat_inner]; show 2 * i ≤ 2 * inner.length; omega),
          List.drop_append_of_le_length (by rw [length_flat_inner]; show 2 * i ≤ 2 * inner.length; omega), take_flat_inner, drop_flat_inner]
        simp
    · obtain ⟨s', h1, _, h3⟩ := extendValues_some dflt vs inner l
      exact ⟨s', h1, fun _ => h3, fun e => absurd hv e⟩
    · simp only [Punct.extendPairs, Punct.emptyOrTrailing, Option.isNone_some, Bool.false_eq_true, if_false, Punct.pushPunct, Option.bind_some]
      exact (doExtend_snoc ps ⟨inner ++ [(l, dflt)], none⟩ rfl).2
    · intro s' e
      simp only [Punct.extendPairs, Punct.emptyOrTrailing, Option.isNone_some, Bool.false_eq_true, if_false, Punct.pushPunct, Option.bind_some] at e
      have := (doExtend_snoc ps ⟨inner ++ [(l, dflt)], none⟩ rfl).1 s' e
      refine ⟨fun _ => ?_, fun e => absurd hv e⟩
      rw [this]
      simp [flat, Punct.pairs]
  | none =>
    have hv : ¬ EndsInValue (Punct.mk inner (none : Option T)) := fun h => by have := he.mp h; cases this
    have hlen : (Punct.mk inner (none : Option T)).len = inner.length := rfl
    refine ⟨⟨⟨fun e => by simp [Punct.pushValue, Punct.emptyOrTrailing] at e, fun e => absurd e hv⟩, ?_⟩,
      ⟨⟨fun _ => hv, fun _ => rfl⟩, fun s' e => by simp [Punct.pushPunct] at e⟩, ⟨_, rfl, fun e => absurd e hv, fun _ => ?_⟩, ⟨?_, ?_⟩, ?_, ⟨?_, ?_⟩⟩
    · intro s' e
      simp only [Punct.pushValue, Punct.emptyOrTrailing, Option.isNone_none, if_true, Option.some.injEq] at e
      subst e
      rw [flat_pairs, flat_pairs]; simp
    · rw [flat_pairs, flat_pairs]; simp
    · simp only [Punct.insert, hlen]
      by_cases h1 : i ≤ inner.length
      · rw [if_pos h1]
        refine ⟨fun e => ?_, fun e => by omega⟩
        split at e
        · simp [Punct.push, Punct.emptyOrTrailing, Punct.pushValue] at e
        · cases e
      · rw [if_neg h1]; exact ⟨fun _ => by omega, fun _ => rfl⟩
    · intro s' e
      simp only [Punct.insert, hlen] at e
      refine ⟨fun h => ?_, fun h => ?_⟩
      · rw [if_pos (by omega), if_pos (by omega)] at e; exact e
      · rw [if_pos (by omega), if_neg (by omega)] at e
        injection e with e
        subst e
        rw [flat_pairs, flat_pairs]
        rw [List.take_append_of_le_length (by rw [length_flat_inner]; show 2 * i ≤ 2 * inner.length; omega),
          List.drop_append_of_le_length (by rw [length_flat_inner]; show 2 * i ≤ 2 * inner.length; omega), take_flat_inner, drop_flat_inner]
        simp
    · cases vs with
      | nil => exact ⟨_, rfl, fun e => absurd e hv, fun _ => by simp⟩
      | cons w vs =>
        obtain ⟨s', h1, _, h3⟩ := extendValues_some dflt vs inner w
        refine ⟨s', h1, fun e => absurd e hv, fun _ => ?_⟩
        rw [h3, flat_pairs, flat_pairs]
        simp
    · exact (doExtend_snoc ps ⟨inner, none⟩ rfl).2
    · intro s' e
      have := (doExtend_snoc ps ⟨inner, none⟩ rfl).1 s' e
      refine ⟨fun e => absurd e hv, fun _ => ?_⟩
      rw [this]
      simp [flat, Punct.pairs]

example : (Punct.mk [(1, ','), (2, ';')] (none : Option Nat)).lastMut (· + 5) = some ⟨[(1, ','), (7, ';')], none⟩ ∧
    (Punct.mk [(1, ',')] (some 2)).extendPairs '.' [] = some ⟨[(1, ','), (2, '.')], none⟩ := ⟨rfl, rfl⟩

/-- **C56** (`Any`). `Any` is its list of items: collecting, extending, iterating, indexing and printing are those of the list. -/
theorem C56_any (l l' : List T) (i : Nat) (f : T → List X) :
    (AnyV.fromIter l).iter = l ∧ ((AnyV.fromIter l).extend l').iter = l ++ l' ∧ (AnyV.fromIter l).len = l.length ∧
    ((AnyV.fromIter l).isEmpty = true ↔ l = []) ∧ (AnyV.fromIter l).get i = l[i]? ∧
    (AnyV.fromIter l).toTokens f = l.flatMap f := by
  simp [AnyV.fromIter, AnyV.iter, AnyV.extend, AnyV.len, AnyV.isEmpty, AnyV.get, AnyV.toTokens]

example : Punct.fromValues ',' [1, 2] = some ⟨[(1, ',')], some 2⟩ ∧
    Punct.fromPairs [.stop 1, .punctuated 2 ','] = (none : Option (Punct Nat Char)) := ⟨rfl, rfl⟩

end Parsel
