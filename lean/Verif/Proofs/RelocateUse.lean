import Verif.Proofs.Relocate
import Verif.Proofs.ExactUnread
import Verif.Proofs.LayoutAt
import Verif.Props.Furthest

/-! Streams of the same tokens, and the positions in layouts. -/

namespace Parsel
open Spec

theorem passed_trans {a b c : List TT} {sa sb sc : Span} {n m : Nat} (h1 : Passed a sa n b sb) (h2 : Passed b sb m c sc) : Passed a sa (n + m) c sc := by
  induction h1 with
  | here => rw [Nat.zero_add]; exact h2
  | over _ ih => rw [Nat.add_assoc]; exact .over (ih h2)
  | @into d inner sp rest scope n ts' scope' _ ih => rw [show n + 1 + m = n + m + 1 by omega]; exact .into (ih h2)

theorem same_count {a b : List TT} (h : SameShape a b) : count a = count b := by
  induction h with
  | nil => rfl
  | ident _ ih => simp [count, countT, ih]
  | punct _ ih => simp [count, countT, ih]
  | lit _ ih => simp [count, countT, ih]
  | group _ _ i1 i2 => simp [count, countT, i1, i2]

/-- The end of the next token, all of a group, is in the list of places. -/
theorem passed_whole {ts rest : List TT} {t : TT} {sc sc' : Span} {n : Nat} (h : Passed ts sc n (t :: rest) sc') :
    (places ts)[n + (countT t - 1)]? = some t.span.stop := by
  generalize hc : t :: rest = cur at h
  induction h with
  | here =>
    subst hc
    cases t with
    | group d inner sp =>
      have : (places inner).length = count inner := places_length inner
      simp only [places, placesT, countT, TT.span, Nat.zero_add, List.cons_append]
      rw [show count inner + 2 - 1 = count inner + 1 by omega, List.getElem?_cons_succ, List.append_assoc, List.getElem?_append_right (by omega)]
      simp [this, Span.closeOf]
    | ident => simp [places, placesT, countT, TT.span]
    | punct => simp [places, placesT, countT, TT.span]
    | lit => simp [places, placesT, countT, TT.span]
  | @over u rest' scope n ts' scope' _ ih =>
    have := ih hc
    rw [places, List.getElem?_append_right (by rw [placesT_length]; omega), placesT_length]
    rw [show countT u + n + (countT t - 1) - countT u = n + (countT t - 1) by omega]
    exact this
  | @into d inner sp rest' scope n ts' scope' _ ih =>
    have h1 := ih hc
    have hlt := (List.getElem?_eq_some_iff.mp h1).1
    rw [places, placesT, show n + 1 + (countT t - 1) = (n + (countT t - 1)) + 1 by omega, List.cons_append, List.getElem?_cons_succ,
      List.append_assoc, List.getElem?_append_left hlt]
    exact h1

/-- The same index in both lists of places. -/
theorem spot_index {ts ts' : List TT} (hs : SameShape ts ts') (h1 : InOrder ts) (h2 : InOrder ts') {sp sp' : Span} {cur cur' : List TT} {sc sc' : Span} {n : Nat}
    (p1 : Passed ts .callSite n cur sc) (p2 : Passed ts' .callSite n cur' sc') (hc : SameShape cur cur') (ht : Twin cur sc cur' sc' sp sp') :
    ∃ i : Nat, (places ts ++ [Span.callSite.stop])[i]? = some sp.stop ∧ (places ts' ++ [Span.callSite.stop])[i]? = some sp'.stop := by
  cases ht with
  | stop => exact ⟨_, passed_place p1 h1 .stop, passed_place p2 h2 .stop⟩
  | token => exact ⟨_, passed_place p1 h1 .token, passed_place p2 h2 .token⟩
  | number => exact ⟨_, passed_place p1 h1 .number, passed_place p2 h2 .number⟩
  | @whole t u a b =>
    have e : countT t = countT u := by
      cases hc with
      | ident _ => rfl
      | punct _ => rfl
      | lit _ => rfl
      | group h _ => simp only [countT, same_count h]
    refine ⟨n + (countT t - 1), ?_, ?_⟩
    · have := passed_whole p1
      rw [List.getElem?_append_left (List.getElem?_eq_some_iff.mp this).1]; exact this
    · have := passed_whole p2
      rw [← e] at this
      rw [List.getElem?_append_left (List.getElem?_eq_some_iff.mp this).1]; exact this

/-- Positions in order, behind `c`: the order of two of them, or of one of them and `c`, is known from the indices. -/
theorem index_order {ps : List LineCol} {c a b : LineCol} (h : ps.Pairwise fun a b => a.lt b = true) (hc : ∀ p ∈ ps, c.lt p = true) {i j : Nat}
    (hi : (ps ++ [c])[i]? = some a) (hj : (ps ++ [c])[j]? = some b) :
    a.lt b = decide (j < ps.length ∧ (i < j ∨ i = ps.length)) := by
  have li : i < (ps ++ [c]).length := (List.getElem?_eq_some_iff.mp hi).1
  have lj : j < (ps ++ [c]).length := (List.getElem?_eq_some_iff.mp hj).1
  simp only [List.length_append, List.length_cons, List.length_nil, Nat.zero_add] at li lj
  have key : ∀ {i j : Nat} {a b : LineCol}, ps[i]? = some a → ps[j]? = some b → i < j → a.lt b = true := by
    intro i j a b hi hj hij
    rw [List.pairwise_iff_getElem] at h
    obtain ⟨h1, e1⟩ := List.getElem?_eq_some_iff.mp hi
    obtain ⟨h2, e2⟩ := List.getElem?_eq_some_iff.mp hj
    have := h i j h1 h2 hij
    rw [e1, e2] at this
    exact this
  have no : ∀ {x y : LineCol}, x.lt y = true → y.lt x = false := by
    intro x y hxy
    cases hyx : y.lt x with
    | false => rfl
    | true =>
      rw [LineCol.lt_iff] at hxy hyx
      omega
  by_cases ei : i = ps.length
  · have ea : a = c := by
      subst ei; rw [List.getElem?_append_right (Nat.le_refl _)] at hi; simpa using hi.symm
    subst ea
    by_cases ej : j = ps.length
    · have eb : b = a := by
        subst ej; rw [List.getElem?_append_right (Nat.le_refl _)] at hj; simpa using hj.symm
      subst eb
      rw [LineCol.lt_irrefl]; simp [ej]
    · have lj' : j < ps.length := by omega
      rw [List.getElem?_append_left lj'] at hj
      rw [hc b (List.mem_of_getElem? hj)]; simp [lj', ei]
  · have li' : i < ps.length := by omega
    rw [List.getElem?_append_left li'] at hi
    by_cases ej : j = ps.length
    · have eb : b = c := by
        subst ej; rw [List.getElem?_append_right (Nat.le_refl _)] at hj; simpa using hj.symm
      subst eb
      rw [no (hc a (List.mem_of_getElem? hi))]; simp [ej]
    · have lj' : j < ps.length := by omega
      rw [List.getElem?_append_left lj'] at hj
      rcases Nat.lt_trichotomy i j with hij | hij | hij
      · rw [key hi hj hij]; simp [lj', hij]
      · subst hij
        rw [hi] at hj; cases hj
        rw [LineCol.lt_irrefl]; simp [ei]
      · rw [no (key hj hi hij)]
        have : ¬ i < j := by omega
        simp [this, ei]

/-- The positions in two streams of the same tokens, and the locations there. -/
theorem couples {ts ts' : List TT} (hs : SameShape ts ts') (hv : Visible ts) (h1 : InOrder ts) (h2 : InOrder ts') (h3 : AfterStart ts) (h4 : AfterStart ts') :
    Couples (fun a sc b sc' => SameShape a b ∧ ∃ m, Passed ts .callSite m a sc ∧ Passed ts' .callSite m b sc')
      (fun sp sp' => ∃ n, SameSpot ts ts' n sp sp') := by
  constructor
  · rintro a sc b sc' ⟨hab, m, p1, p2⟩
    have step : ∀ {t u : TT} {a b : List TT}, countT t = countT u → SameShape a b → Passed ts .callSite m (t :: a) sc → Passed ts' .callSite m (u :: b) sc' →
        SameShape a b ∧ ∃ m, Passed ts .callSite m a sc ∧ Passed ts' .callSite m b sc' := by
      intro t u a b e hab p1 p2
      refine ⟨hab, m + (countT t + 0), passed_trans p1 (.over .here), ?_⟩
      rw [e]
      exact passed_trans p2 (.over .here)
    cases hab with
    | nil => exact .stop ⟨m, _, _, _, _, p1, p2, .nil, .stop⟩
    | ident h => exact .ident ⟨m, _, _, _, _, p1, p2, .ident h, .token⟩ (step (by rfl) h p1 p2)
    | punct h => exact .punct ⟨m, _, _, _, _, p1, p2, .punct h, .token⟩ (step (by rfl) h p1 p2)
    | lit h => exact .lit ⟨m, _, _, _, _, p1, p2, .lit h, .token⟩ (step (by rfl) h p1 p2)
    | @group d i j sp sp' a b hi h =>
      refine .group ?_ ⟨m, _, _, _, _, p1, p2, .group hi h, .token⟩ ⟨m, _, _, _, _, p1, p2, .group hi h, .whole⟩ ?_ (step (by simp only [countT, same_count hi]) h p1 p2)
      · rintro rfl
        exact passed_visible p1 hv i sp .head
      · exact ⟨hi, m + (0 + 1), passed_trans p1 (.into .here), passed_trans p2 (.into .here)⟩
  · rintro spc sp1 r sp2 a sc spc' sp1' r' sp2' b sc' ⟨hab, m, p1, p2⟩
    exact ⟨m, _, _, _, _, p1, p2, hab, .number⟩
  · rintro a a' b b' ⟨n, _, _, _, _, p1, p2, hc, ht⟩ ⟨m, _, _, _, _, q1, q2, hd, hu⟩
    obtain ⟨i, i1, i2⟩ := spot_index hs h1 h2 p1 p2 hc ht
    obtain ⟨j, j1, j2⟩ := spot_index hs h1 h2 q1 q2 hd hu
    rw [index_order h1 h3 i1 j1, index_order h2 h4 i2 j2, places_length, places_length, same_count hs]

/-! ### layouts are in order -/

theorem layoutAt_between {p x : Text} {ts : List TT} (h : LayoutAt p ts x) : Writable ts → Between (posAfter p) (posAfter (p ++ x)) (places ts) := by
  have one : ∀ {p g x rest : Text} {qs : List LineCol}, x ≠ [] → Between (posAfter (p ++ g ++ x)) (posAfter (p ++ g ++ x ++ rest)) qs →
      Between (posAfter p) (posAfter (p ++ (g ++ (x ++ rest)))) ((stretchSpan (p ++ g) x).stop :: qs) := by
    intro p g x rest qs hx hb
    have h1 : Between (posAfter (p ++ g)) (posAfter (p ++ g ++ x)) [(stretchSpan (p ++ g) x).stop] := Between.one (posAfter_lt hx)
    have h2 := h1.append hb (posAfter_le _ _) (posAfter_le _ _)
    have e : p ++ (g ++ (x ++ rest)) = p ++ g ++ x ++ rest := by simp
    rw [e]
    exact ⟨h2.1, fun q hq => ⟨LineCol.lt_of_le_of_lt (posAfter_le g p) (h2.2 q hq).1, (h2.2 q hq).2⟩⟩
  induction h with
  | nil _ => intro _; exact ⟨.nil, by simp [places]⟩
  | ident _ _ _ ih =>
    intro hw
    cases hw with
    | ident hx hw =>
      obtain ⟨c, cs, rfl, _⟩ := identText_start hx
      exact one (by simp) (ih hw)
  | lit _ _ _ ih =>
    intro hw
    cases hw with
    | lit hx hw =>
      refine one ?_ (ih hw)
      rcases hx with hx | rfl
      · obtain ⟨c, cs, rfl, _⟩ := litText_start hx; simp
      · intro h
        have := congrArg List.length h
        simp at this
  | alone _ _ _ ih =>
    intro hw
    cases hw with
    | alone _ _ hw => exact one (by simp) (ih hw)
  | joint _ _ _ ih =>
    intro hw
    cases hw with
    | joint _ _ hw => exact one (by simp) (ih hw)
  | @group p g d o c inner body ts rest hg hd _ _ _ ih1 ih2 =>
    intro hw
    cases hw with
    | group hw1 hw2 =>
      have h1 := ih1 hw1
      have h2 := ih2 hw2
      obtain ⟨e1, e2⟩ := open_place (pre := p ++ g) (body := body) hd
      simp only [places, placesT, e1, e2]
      have a1 : Between (posAfter (p ++ g)) (posAfter (p ++ g ++ [o])) [posAfter (p ++ g ++ [o])] := Between.one (posAfter_lt (by simp))
      have a2 : Between (posAfter (p ++ g ++ [o] ++ body)) (posAfter (p ++ g ++ (o :: body ++ [c]))) [posAfter (p ++ g ++ (o :: body ++ [c]))] := by
        have e : p ++ g ++ (o :: body ++ [c]) = (p ++ g ++ [o] ++ body) ++ [c] := by simp
        rw [e]
        exact Between.one (posAfter_lt (by simp))
      have l2 : (posAfter (p ++ g ++ [o])).le (posAfter (p ++ g ++ [o] ++ body)) = true := posAfter_le _ _
      have l3 : (posAfter (p ++ g ++ [o] ++ body)).le (posAfter (p ++ g ++ (o :: body ++ [c]))) = true := by
        have e : p ++ g ++ (o :: body ++ [c]) = (p ++ g ++ [o] ++ body) ++ [c] := by simp
        rw [e]
        exact posAfter_le _ _
      have h3 := (a1.append (h1.append a2 l2 l3) (posAfter_le _ _) (LineCol.le_trans l2 l3)).append h2 (posAfter_le _ _) (posAfter_le _ _)
      have e : p ++ (g ++ o :: (body ++ c :: rest)) = p ++ g ++ (o :: body ++ [c]) ++ rest := by simp
      rw [e]
      exact ⟨by simpa using h3.1, fun q hq => ⟨LineCol.lt_of_le_of_lt (posAfter_le g p) (h3.2 q (by simpa using hq)).1, (h3.2 q (by simpa using hq)).2⟩⟩

theorem between_ordered {p x : Text} {ts : List TT} (h : Between (posAfter p) (posAfter (p ++ x)) (places ts)) : InOrder ts ∧ AfterStart ts := by
  refine ⟨h.1, fun q hq => LineCol.lt_of_le_of_lt ?_ (h.2 q hq).1⟩
  exact posAfter_le p []

end Parsel
