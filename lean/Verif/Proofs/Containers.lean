import Verif.Spec.Containers
import Verif.Proofs.Combinators

/-! Helper lemmas about the containers. -/

namespace Parsel
open Spec

variable {T P : Type}

theorem flat_append (a b : List (Pair T P)) : flat (a ++ b) = flat a ++ flat b := by simp [flat]

/-- The stored form of a separated sequence as an alternating list. -/
theorem flat_pairs (s : Punct T P) :
    flat s.pairs = s.inner.flatMap (fun x => [.inl x.1, .inr x.2]) ++ s.last.toList.map .inl := by
  simp only [Punct.pairs, flat_append]
  congr 1
  · simp [flat, List.flatMap_map]
  · cases s.last <;> simp [flat]

theorem endsInValue_iff (s : Punct T P) : EndsInValue s ↔ s.last.isSome = true := by
  unfold EndsInValue
  rw [flat_pairs]
  cases hl : s.last with
  | some v => simp only [Option.isSome_some, iff_true]; exact ⟨_, v, rfl⟩
  | none =>
    simp only [Option.isSome_none, Bool.false_eq_true, iff_false]
    rintro ⟨pre, v, h⟩
    simp only [Option.toList_none, List.map_nil, List.append_nil] at h
    generalize s.inner = l at h
    induction l generalizing pre with
    | nil => simp at h
    | cons x l ih =>
      simp only [List.flatMap_cons, List.cons_append, List.nil_append] at h
      cases pre with
      | nil => simp at h
      | cons a pre =>
        simp only [List.cons_append, List.cons.injEq] at h
        cases pre with
        | nil => simp at h
        | cons b pre => simp only [List.cons_append, List.cons.injEq] at h; exact ih pre h.2.2

theorem values_of_flat (s : Punct T P) : s.values = (flat s.pairs).filterMap Sum.getLeft? := by
  rw [flat_pairs]
  unfold Punct.values
  simp only [List.filterMap_append]
  congr 1
  · induction s.inner with
    | nil => rfl
    | cons x l ih =>
      simp only [List.map_cons, ih, List.flatMap_cons, List.cons_append, List.nil_append]
      rfl
  · cases s.last <;> rfl

theorem length_flat_inner (l : List (T × P)) :
    (l.flatMap (fun x => ([.inl x.1, .inr x.2] : List (T ⊕ P)))).length = 2 * l.length := by
  induction l with
  | nil => rfl
  | cons x l ih => simp only [List.flatMap_cons, List.length_append, ih]; simp; omega

theorem take_flat_inner (l : List (T × P)) (i : Nat) :
    (l.flatMap (fun x => ([.inl x.1, .inr x.2] : List (T ⊕ P)))).take (2 * i)
      = (l.take i).flatMap (fun x => [.inl x.1, .inr x.2]) := by
  induction l generalizing i with
  | nil => simp
  | cons x l ih =>
    cases i with
    | zero => rfl
    | succ i =>
      have : 2 * (i + 1) = 2 * i + 1 + 1 := by omega
      simp only [this, List.flatMap_cons, List.cons_append, List.nil_append, List.take_succ_cons, ih]

theorem drop_flat_inner (l : List (T × P)) (i : Nat) :
    (l.flatMap (fun x => ([.inl x.1, .inr x.2] : List (T ⊕ P)))).drop (2 * i)
      = (l.drop i).flatMap (fun x => [.inl x.1, .inr x.2]) := by
  induction l generalizing i with
  | nil => simp
  | cons x l ih =>
    cases i with
    | zero => rfl
    | succ i =>
      have : 2 * (i + 1) = 2 * i + 1 + 1 := by omega
      simp only [this, List.flatMap_cons, List.cons_append, List.nil_append, List.drop_succ_cons, ih]

theorem extendValues_some (dflt : P) (vs : List T) : ∀ (inner : List (T × P)) (l : T),
    ∃ s', Punct.extendValues dflt ⟨inner, some l⟩ vs = some s' ∧ s'.last.isSome = true ∧
      flat s'.pairs = flat (Punct.mk inner (some l)).pairs ++ vs.flatMap fun v => [.inr dflt, .inl v] := by
  induction vs with
  | nil => intro inner l; exact ⟨_, rfl, rfl, by simp⟩
  | cons v vs ih =>
    intro inner l
    obtain ⟨s', h1, h2, h3⟩ := ih (inner ++ [(l, dflt)]) v
    refine ⟨s', ?_, h2, ?_⟩
    · simpa [Punct.extendValues, Punct.push, Punct.emptyOrTrailing, Punct.pushPunct, Punct.pushValue] using h1
    · rw [h3, flat_pairs, flat_pairs]; simp

theorem extendPairs_some (pvs : List (P × T)) : ∀ (inner : List (T × P)) (l : T),
    ∃ s', Separated.extendPairs ⟨⟨inner, some l⟩⟩ pvs = some s' ∧ s'.inner.last.isSome = true ∧
      flat s'.inner.pairs = flat (Punct.mk inner (some l)).pairs ++ pvs.flatMap fun x => [.inr x.1, .inl x.2] := by
  induction pvs with
  | nil => intro inner l; exact ⟨_, rfl, rfl, by simp⟩
  | cons x pvs ih =>
    obtain ⟨p, v⟩ := x
    intro inner l
    obtain ⟨s', h1, h2, h3⟩ := ih (inner ++ [(l, p)]) v
    refine ⟨s', ?_, h2, ?_⟩
    · simpa [Separated.extendPairs, Separated.push, Punct.emptyOrTrailing, Punct.pushPunct, Punct.pushValue] using h1
    · rw [h3, flat_pairs, flat_pairs]; simp

theorem flat_mapIdx_inner (f : Nat → T → T) (g : Nat → P → P) (l : List (T × P)) : ∀ (h : Nat → T ⊕ P → T ⊕ P) (k : Nat),
    (∀ i t, h (2 * i) (.inl t) = .inl (f (k + i) t)) → (∀ i p, h (2 * i + 1) (.inr p) = .inr (g (k + i) p)) →
    (l.flatMap fun x => ([.inl x.1, .inr x.2] : List (T ⊕ P))).mapIdx h =
      (l.mapIdx fun i tp => (f (k + i) tp.1, g (k + i) tp.2)).flatMap fun x => [.inl x.1, .inr x.2] := by
  induction l with
  | nil => intros; rfl
  | cons x l ih =>
    intro h k h1 h2
    have := ih (fun i => h (i + 2)) (k + 1) (fun i t => by have := h1 (i + 1) t; rw [show k + 1 + i = k + (i + 1) by omega]; exact this)
      (fun i p => by have := h2 (i + 1) p; rw [show k + 1 + i = k + (i + 1) by omega]; exact this)
    simp only [List.flatMap_cons, List.cons_append, List.nil_append, List.mapIdx_cons, this]
    rw [show h 0 (.inl x.1) = .inl (f (k + 0) x.1) from h1 0 x.1, show h (0 + 1) (.inr x.2) = .inr (g (k + 0) x.2) from h2 0 x.2]
    simp only [Nat.add_assoc, Nat.add_comm 1]

/-- Changing values and separators in place, as an alternating list. -/
theorem flat_pairsMut (f : Nat → T → T) (g : Nat → P → P) (s : Punct T P) (h : Nat → T ⊕ P → T ⊕ P)
    (h1 : ∀ i t, i ≤ s.inner.length → h (2 * i) (.inl t) = .inl (f i t)) (h2 : ∀ i p, h (2 * i + 1) (.inr p) = .inr (g i p)) :
    flat (s.pairsMut f g).pairs = (flat s.pairs).mapIdx h := by
  rw [flat_pairs, flat_pairs, List.mapIdx_append]
  let h' : Nat → T ⊕ P → T ⊕ P := fun j x => if j ≤ 2 * s.inner.length then h j x else change (f (j / 2)) (g (j / 2)) x
  have e : (s.inner.flatMap fun x => ([.inl x.1, .inr x.2] : List (T ⊕ P))).mapIdx h = (s.inner.flatMap fun x => ([.inl x.1, .inr x.2] : List (T ⊕ P))).mapIdx h' := by
    apply List.ext_getElem
    · simp
    · intro i a b
      simp only [List.length_mapIdx, length_flat_inner] at a
      simp only [List.getElem_mapIdx, h']
      rw [if_pos (by omega)]
  rw [e, flat_mapIdx_inner f g s.inner h' 0]
  · congr 1
    · simp [Punct.pairsMut]
    · cases hl : s.last with
      | none => simp [Punct.pairsMut, hl]
      | some v =>
        simp only [Punct.pairsMut, hl, Option.map_some, Option.toList_some, List.map_cons, List.map_nil, List.mapIdx_cons, List.mapIdx_nil, length_flat_inner,
          Nat.zero_add]
        rw [h1 _ _ (Nat.le_refl _)]
  · intro i t
    simp only [h', Nat.zero_add]
    split
    · exact h1 i t (by omega)
    · rw [show 2 * i / 2 = i by omega]; rfl
  · intro i p
    simp only [h', Nat.zero_add]
    split
    · exact h2 i p
    · rw [show (2 * i + 1) / 2 = i by omega]; rfl

theorem flat_length (s : Punct T P) : (flat s.pairs).length = 2 * s.inner.length + (if s.last.isSome then 1 else 0) := by
  rw [flat_pairs, List.length_append, length_flat_inner]
  cases s.last <;> rfl

theorem set_eq_mapIdx {A : Type} (f : A → A) (l : List A) (i : Nat) (a : A) (h : l[i]? = some a) :
    l.set i (f a) = l.mapIdx fun j x => if j = i then f x else x := by
  apply List.ext_getElem
  · simp
  · intro j h1 h2
    simp only [List.length_set] at h1
    rw [List.getElem_set, List.getElem_mapIdx]
    by_cases e : i = j
    · subst e
      rw [if_pos rfl, if_pos rfl]
      rw [List.getElem?_eq_getElem h1] at h
      injection h with h
      rw [h]
    · rw [if_neg e, if_neg (fun h => e h.symm)]

/-- One operation on a sequence ending in a value. -/
theorem run_some (dflt : P) (op : SepOp T P) (s : Separated T P) (hs : s.inner.last.isSome = true) :
    (∃ s', op.run dflt s = some s' ∧ s'.inner.last.isSome = true ∧ flat s'.inner.pairs = op.effect dflt (flat s.inner.pairs)) ∨
    (op.run dflt s = none ∧ ((∃ i v, op = .insert i v ∧ s.inner.len < i) ∨ ∃ i f, op = .indexMut i f ∧ s.inner.len ≤ i)) := by
  obtain ⟨⟨inner, last⟩⟩ := s
  cases last with
  | none => simp at hs
  | some l =>
    cases op with
    | push p v =>
      refine .inl ⟨_, rfl, rfl, ?_⟩
      simp only [SepOp.effect]; rw [flat_pairs, flat_pairs]; simp
    | pushValue v =>
      refine .inl ⟨_, rfl, rfl, ?_⟩
      simp only [SepOp.effect]; rw [flat_pairs, flat_pairs]; simp
    | extendValues vs =>
      obtain ⟨s', h1, h2, h3⟩ := extendValues_some dflt vs inner l
      exact .inl ⟨⟨s'⟩, by simp [SepOp.run, Separated.extendValues, h1], h2, h3⟩
    | extendPairs pvs =>
      obtain ⟨s', h1, h2, h3⟩ := extendPairs_some pvs inner l
      exact .inl ⟨s', h1, h2, h3⟩
    | insert i v =>
      have hlen : (Punct.mk inner (some l)).len = inner.length + 1 := rfl
      have hfl : (flat (Punct.mk inner (some l)).pairs).length = 2 * inner.length + 1 := by
        rw [flat_pairs, List.length_append, length_flat_inner]; rfl
      by_cases h1 : i ≤ inner.length + 1
      · by_cases h2 : i = inner.length + 1
        · left
          refine ⟨⟨⟨inner ++ [(l, dflt)], some v⟩⟩, ?_, rfl, ?_⟩
          · simp [SepOp.run, Separated.insert, Punct.insert, hlen, h2, Punct.push, Punct.emptyOrTrailing, Punct.pushPunct,
              Punct.pushValue]
          · rw [SepOp.effect, if_neg (by rw [hfl]; omega)]
            rw [flat_pairs, flat_pairs]; simp
        · left
          refine ⟨⟨⟨inner.take i ++ (v, dflt) :: inner.drop i, some l⟩⟩, ?_, rfl, ?_⟩
          · simp [SepOp.run, Separated.insert, Punct.insert, hlen, h1, h2]
          · rw [SepOp.effect, if_pos (by rw [hfl]; omega)]
            rw [flat_pairs, flat_pairs]
            rw [List.take_append_of_le_length (by rw [length_flat_inner]; show 2 * i ≤ 2 * inner.length; omega),
              List.drop_append_of_le_length (by rw [length_flat_inner]; show 2 * i ≤ 2 * inner.length; omega), take_flat_inner, drop_flat_inner]
            simp
      · right
        refine ⟨?_, .inl ⟨i, v, rfl, by show (Punct.mk inner (some l)).len < i; omega⟩⟩
        simp [SepOp.run, Separated.insert, Punct.insert, hlen, h1]
    | pairsMut f g =>
      refine .inl ⟨_, rfl, rfl, ?_⟩
      refine flat_pairsMut f g ⟨inner, some l⟩ _ (fun i t _ => ?_) (fun i p => ?_)
      · rw [show 2 * i / 2 = i by omega]; rfl
      · rw [show (2 * i + 1) / 2 = i by omega]; rfl
    | iterMut f =>
      refine .inl ⟨_, rfl, rfl, ?_⟩
      refine flat_pairsMut f (fun _ p => p) ⟨inner, some l⟩ _ (fun i t _ => ?_) (fun i p => rfl)
      rw [show 2 * i / 2 = i by omega]; rfl
    | firstMut f =>
      refine .inl ⟨⟨(Punct.mk inner (some l)).pairsMut (fun i t => if i = 0 then f t else t) fun _ p => p⟩, ?_, rfl, ?_⟩
      · cases inner with
        | nil => rfl
        | cons x inner =>
          simp [SepOp.run, Separated.firstMut, Punct.firstMut, Punct.pairsMut, List.mapIdx_cons]
          exact (List.ext_getElem (by simp) (by intros; simp))
      · refine flat_pairsMut _ _ ⟨inner, some l⟩ _ (fun i t _ => ?_) (fun i p => ?_)
        · by_cases h : i = 0
          · simp [h, change]
          · rw [if_neg (by omega), if_neg h]; rfl
        · rw [if_neg (by omega)]; rfl
    | lastMut f =>
      have hfl := flat_length (⟨inner, some l⟩ : Punct T P)
      simp only [Option.isSome_some, if_true] at hfl
      refine .inl ⟨⟨(Punct.mk inner (some l)).pairsMut (fun i t => if i = inner.length then f t else t) fun _ p => p⟩, ?_, rfl, ?_⟩
      · simp only [SepOp.run, Separated.lastMut, Punct.lastMut, Punct.pairsMut, Option.map_some, if_true, Option.some.injEq, Separated.mk.injEq, Punct.mk.injEq, and_true]
        apply List.ext_getElem
        · simp
        · intro i h1 h2
          rw [List.getElem_mapIdx, if_neg (by omega)]
      · simp only [SepOp.effect, hfl]
        refine flat_pairsMut _ _ ⟨inner, some l⟩ _ (fun i t _ => ?_) (fun i p => ?_)
        · by_cases h : i = inner.length
          · rw [if_pos (by omega), if_pos h]; rfl
          · rw [if_neg (by omega), if_neg h]; rfl
        · split <;> rfl
    | indexMut i f =>
      have hlen : (Punct.mk inner (some l)).len = inner.length + 1 := rfl
      by_cases h1 : i ≤ inner.length
      · refine .inl ⟨⟨(Punct.mk inner (some l)).pairsMut (fun j t => if j = i then f t else t) fun _ p => p⟩, ?_, rfl, ?_⟩
        · by_cases h2 : i = inner.length
          · subst h2
            simp only [SepOp.run, Separated.indexMut, Punct.indexMut, hlen, Nat.add_sub_cancel, if_true, Punct.pairsMut, Option.map_some]
            rw [if_neg (by omega)]
            simp only [Option.map_some, Option.some.injEq, Separated.mk.injEq, Punct.mk.injEq, and_true]
            apply List.ext_getElem
            · simp
            · intro i h1 h2
              rw [List.getElem_mapIdx, if_neg (by omega)]
          · have hi : inner[i]? = some inner[i] := List.getElem?_eq_getElem (by omega)
            simp only [SepOp.run, Separated.indexMut, Punct.indexMut, hlen, Nat.add_sub_cancel, Punct.pairsMut, Option.map_some]
            rw [if_neg (by omega), if_neg h2, hi, if_neg (fun h => h2 h.symm)]
            simp only [Option.map_some, Option.some.injEq, Separated.mk.injEq, Punct.mk.injEq, and_true]
            rw [set_eq_mapIdx (fun tp => (f tp.1, tp.2)) inner i _ hi]
            congr 1
            funext j x
            by_cases h : j = i
            · rw [if_pos h, if_pos h]
            · rw [if_neg h, if_neg h]
        · refine flat_pairsMut _ _ ⟨inner, some l⟩ _ (fun j t _ => ?_) (fun j p => ?_)
          · by_cases h : j = i
            · rw [if_pos (by omega), if_pos h]; rfl
            · rw [if_neg (by omega), if_neg h]; rfl
          · split <;> rfl
      · right
        refine ⟨?_, .inr ⟨i, f, rfl, by show (Punct.mk inner (some l)).len ≤ i; omega⟩⟩
        simp only [SepOp.run, Separated.indexMut, Punct.indexMut, hlen, Nat.add_sub_cancel]
        rw [if_neg (by omega), if_neg (by omega), List.getElem?_eq_none (by omega)]
        rfl

theorem flat_ofFirstRest (v0 : T) (rest : List (P × T)) :
    flat (ofFirstRest [] v0 rest).pairs = .inl v0 :: rest.flatMap fun x => [.inr x.1, .inl x.2] := by
  induction rest generalizing v0 with
  | nil => simp [ofFirstRest_nil_pairs, flat]
  | cons x rest ih =>
    obtain ⟨q, v⟩ := x
    rw [ofFirstRest_cons_pairs]
    have : flat (Pair.punctuated v0 q :: (ofFirstRest [] v rest).pairs)
        = [.inl v0, .inr q] ++ flat (ofFirstRest [] v rest).pairs := by simp [flat]
    rw [this, ih]; simp

theorem flat_shiftLast (v0 : T) (rest : List (P × T)) :
    (.inl v0 :: rest.flatMap fun x => [.inr x.1, .inl x.2] : List (T ⊕ P))
      = ((shiftLast v0 rest).1.flatMap fun x => [.inl x.1, .inr x.2]) ++ [.inl (shiftLast v0 rest).2] := by
  induction rest generalizing v0 with
  | nil => simp [shiftLast]
  | cons x rest ih =>
    obtain ⟨q, v⟩ := x
    simp only [shiftLast, List.flatMap_cons, List.cons_append, List.nil_append]
    rw [← ih v]

theorem doExtend_snoc (ps : List (Pair T P)) (s : Punct T P) (hs : s.last = none) :
    (∀ s', s.doExtend ps = some s' → s'.pairs = s.pairs ++ ps) ∧
    (s.doExtend ps = none ↔ ∃ pre t x post, ps = pre ++ .stop t :: x :: post) := by
  induction ps generalizing s with
  | nil => simp [Punct.doExtend]
  | cons p ps ih =>
    cases p with
    | punctuated t q =>
      simp only [Punct.doExtend]
      obtain ⟨h1, h2⟩ := ih ⟨s.inner ++ [(t, q)], s.last⟩ hs
      refine ⟨?_, ?_⟩
      · intro s' h
        rw [h1 s' h]; simp [Punct.pairs, hs]
      · rw [h2]
        constructor
        · rintro ⟨pre, t', x, post, rfl⟩; exact ⟨_ :: pre, t', x, post, rfl⟩
        · rintro ⟨pre, t', x, post, h⟩
          cases pre with
          | nil => simp at h
          | cons a pre => simp only [List.cons_append, List.cons.injEq] at h; exact ⟨pre, t', x, post, h.2⟩
    | stop t =>
      cases ps with
      | nil =>
        simp only [Punct.doExtend, Option.some.injEq, forall_eq', reduceCtorEq, false_iff]
        refine ⟨by simp [Punct.pairs, hs], ?_⟩
        rintro ⟨pre, t', x, post, h⟩
        have := congrArg List.length h
        simp at this; omega
      | cons x post => simp [Punct.doExtend]; exact ⟨[], t, x, post, rfl⟩

theorem fromValues_aux (dflt : P) (vs : List T) (v : T) :
    Punct.fromValues dflt (v :: vs) = some (ofFirstRest [] v (vs.map fun w => (dflt, w))) := by
  suffices h : ∀ inner (v : T), Punct.extendValues dflt ⟨inner, some v⟩ vs
      = some (ofFirstRest inner v (vs.map fun w => (dflt, w))) by
    simpa [Punct.fromValues, Punct.extendValues, Punct.empty, Punct.push, Punct.emptyOrTrailing, Punct.pushValue] using h [] v
  induction vs with
  | nil => intro inner v; rfl
  | cons w vs ih =>
    intro inner v
    have := ih (inner ++ [(v, dflt)]) w
    simpa [Punct.extendValues, Punct.push, Punct.emptyOrTrailing, Punct.pushPunct, Punct.pushValue, ofFirstRest] using this

theorem punct_len_values (s : Punct T P) : s.len = s.values.length := by
  unfold Punct.len Punct.values
  cases s.last <;> simp

theorem punct_index_values (s : Punct T P) (i : Nat) : s.index i = s.values[i]? := by
  obtain ⟨inner, last⟩ := s
  unfold Punct.index Punct.values Punct.len
  cases last with
  | none =>
    simp only [Option.isSome_none, Bool.false_eq_true, if_false, Nat.add_zero, Option.toList_none, List.append_nil,
      List.getElem?_map, ite_self]
    split
    · rename_i h; simp [List.length_eq_zero_iff.1 h]
    · rfl
  | some l =>
    simp only [Option.isSome_some, if_true, Nat.add_eq_zero_iff, Nat.succ_ne_self, and_false, if_false,
      Nat.add_sub_cancel, Option.toList_some]
    split
    · rename_i h; subst h; simp
    · rename_i h
      rcases Nat.lt_or_ge i inner.length with hl | hl
      · rw [List.getElem?_append_left (by simpa using hl)]; simp
      · have : inner.length < i := by omega
        rw [List.getElem?_eq_none hl, List.getElem?_eq_none (by simp; omega)]; rfl

theorem cmpText_eq (a b : List Char) : cmpText a b = .eq ↔ a = b := by
  induction a generalizing b with
  | nil => cases b <;> simp [cmpText]
  | cons x a ih =>
    cases b with
    | nil => simp [cmpText]
    | cons y b =>
      simp only [cmpText]
      split
      · simp; intro h; subst h; omega
      · split
        · simp; intro h; subst h; omega
        · rename_i h1 h2
          have : x = y := by
            apply Char.ext; apply UInt32.toNat_inj.1; omega
          simp [this, ih]

theorem cmpText_swap (a b : List Char) : cmpText b a = (cmpText a b).swap := by
  induction a generalizing b with
  | nil => cases b <;> simp [cmpText]
  | cons x a ih =>
    cases b with
    | nil => simp [cmpText]
    | cons y b =>
      simp only [cmpText]
      split
      · rw [if_neg (by omega)]; rfl
      · split
        · rfl
        · exact ih b

end Parsel
