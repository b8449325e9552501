import Verif.Proofs.Survive
import Verif.Proofs.Reparse

/-! No `Lit::Int(0)` is read from a stream without `-0`. -/

namespace Parsel
open Spec
variable [Ext]

theorem fine_rest {env : Env} {t : Ty} {ts rest : List TT} {v : Val} {left : Option Span} (h : Matches env t ts v rest left) (hf : Fine (dissolve ts)) :
    Fine (dissolve rest) := by
  obtain ⟨n, hp⟩ := matches_parses h ⟨ts, .callSite, none⟩ rfl
  obtain ⟨_, pre, i, hd, hr, _⟩ := parse_reads env n _ _ _ _ hp
  simp only [after_cur] at hd
  rw [hd] at hf
  exact hf.right

omit [Ext] in
theorem fine_group {ts inner rest : List TT} {d : Delim} {sp : Span} (hd : d ≠ .none) (h : Next ts (.group d inner sp) rest) (hf : Fine (dissolve ts)) : Fine (dissolve inner) := by
  rw [dissolve_next h] at hf
  have : dissolveT (.group d inner sp) = [.group d (dissolve inner) sp] := by cases d <;> simp_all [dissolveT]
  rw [this] at hf
  exact hf.inside

theorem leafAt_nozero {l : Leaf} {ts rest : List TT} {v : LeafVal} (h : LeafAt l ts v rest) (hf : Fine (dissolve ts)) :
    l = .lit .any → ∀ sp, v ≠ .lit (.int 0) sp := by
  intro hl sp hv
  subst hl hv
  cases h with
  | lit h =>
    generalize hz : LitVal.int 0 = z at h
    generalize hk : LitKind.any = k at h
    cases h with
    | int => cases hk
    | @negative _ n _ _ h hr =>
      have hn : n = 0 := by
        simp only [LitVal.int.injEq, signed, if_true] at hz
        omega
      subst hn
      cases h with
      | minus h1 h2 h3 =>
        have hf := hf
        rw [dissolve_next h1, dissolve_next h2] at hf
        exact hf.zero _ _ _ _ (Segment.here (a := []) (c := dissolve rest)) h3
      | inside h1 h2 =>
        have hf := hf
        rw [dissolve_next h1] at hf
        exact hf.unsigned _ sp .head rfl
    | _ => cases hz

/-- Pairs without zeros. -/
def NoZeroPairs (tail : List (Val × Val)) : Prop := ∀ x ∈ tail, NoZero x.1 ∧ NoZero x.2

theorem noZeroPairs_flat {tail : List (Val × Val)} (h : NoZeroPairs tail) : NoZeroL (tail.flatMap fun x => [x.1, x.2]) := by
  induction tail with
  | nil => trivial
  | cons x tail ih =>
    simp only [List.flatMap_cons, List.cons_append, List.nil_append, NoZeroL]
    exact ⟨(h x (by simp)).1, (h x (by simp)).2, ih (fun y hy => h y (by simp [hy]))⟩

theorem noZero_left {tail : List (Val × Val)} (h : NoZeroPairs tail) : ∀ {acc : Val}, NoZero acc → NoZero (leftTree acc tail) := by
  induction tail with
  | nil => exact fun ha => ha
  | cons x tail ih =>
    intro acc ha
    exact ih (fun y hy => h y (by simp [hy])) ⟨ha, (h x (by simp)).1, (h x (by simp)).2, trivial⟩

theorem noZero_right {tail : List (Val × Val)} (h : NoZeroPairs tail) : ∀ {first : Val}, NoZero first → NoZero (rightTree first tail) := by
  induction tail with
  | nil => exact fun ha => ⟨ha, trivial⟩
  | cons x tail ih =>
    intro first ha
    exact ⟨ha, (h x (by simp)).1, ih (fun y hy => h y (by simp [hy])) (h x (by simp)).2, trivial⟩

theorem matches_nozero {env : Env} {t : Ty} {ts : List TT} {v : Val} {rest : List TT} {left : Option Span} (h : Matches env t ts v rest left) :
    Fine (dissolve ts) → NoZero v := by
  refine Matches.rec
    (motive_1 := fun t ts v rest left _ => Fine (dissolve ts) → NoZero v)
    (motive_2 := fun us ts vs rest left _ => Fine (dissolve ts) → NoZeroL vs)
    (motive_3 := fun t p ts vs rest left _ => Fine (dissolve ts) → NoZeroL vs)
    (motive_4 := fun p t ts tail rest left _ => Fine (dissolve ts) → NoZeroPairs tail)
    (motive_5 := fun t ts vs rest left _ => Fine (dissolve ts) → NoZeroL vs)
    (motive_6 := fun t ts _ => True)
    (motive_7 := fun us ts _ => True)
    (motive_8 := fun t p ts _ => True)
    (motive_9 := fun p t ts _ => True)
    ?_ ?_ ?_ ?_ ?_ ?_ ?_ ?_ ?_ ?_ ?_ ?_ ?_ ?_
    ?_ ?_ ?_ ?_ ?_ ?_ ?_ ?_ ?_
    ?_ ?_ ?_ ?_ ?_ ?_ ?_ ?_ ?_ ?_ ?_ ?_ ?_ ?_ ?_
    ?_ ?_ ?_ ?_ ?_ ?_ ?_ h
  · intro l ts v rest h hf
    exact leafAt_nozero h hf
  · intro x fields ts vs rest left hx _ ih hf
    exact ih hf
  · intro x before v after ts vs rest left hx _ _ ihb ih hf
    exact ih hf
  · intro t ts v rest left _ ih
    exact ih
  · intro p t ts a mid l1 b rest l2 h1 _ ih1 ih2 hf
    exact ⟨ih1 hf, ih2 (fine_rest h1 hf), trivial⟩
  · intro p t ts _ ih hf
    exact trivial
  · intro g d t ts inner sp rest v unread l1 l2 hg hn _ hu ih hf
    exact ih (fine_group (by cases hg <;> simp) hn hf)
  · intro t p ts vs rest left _ ih hf
    exact ih hf
  · intro t p ts v mid l1 tail rest l2 h1 _ ih1 ih2 hf
    exact ⟨ih1 hf, noZeroPairs_flat (ih2 (fine_rest h1 hf))⟩
  · intro t ts vs rest left _ ih hf
    exact ih hf
  · intro o r ts v mid l1 tail rest l2 h1 _ ih1 ih2 hf
    exact noZero_left (ih2 (fine_rest h1 hf)) ⟨ih1 hf, trivial⟩
  · intro o l ts v mid l1 tail rest l2 h1 _ ih1 ih2 hf
    exact noZero_right (ih2 (fine_rest h1 hf)) (ih1 hf)
  · intro l r ts v rest left _ ih hf
    exact ⟨ih hf, trivial⟩
  · intro l r ts v rest left _ _ ih1 ih2 hf
    exact ⟨ih2 hf, trivial⟩
  · exact fun _ => trivial
  · intro t us ts v mid l1 vs rest l2 h1 _ ih1 ih2 hf
    exact ⟨ih1 hf, ih2 (fine_rest h1 hf)⟩
  · exact fun _ => trivial
  · intro t p ts v left h0 hm ih hf
    exact ⟨ih hf, trivial⟩
  · intro t p ts v mid l1 q next l2 vs rest l3 h0 h1 h2 hq hr ih1 ih2 ih3 hf
    exact ⟨ih1 hf, ih2 (fine_rest h1 hf), ih3 (fine_rest hq (fine_rest h1 hf))⟩
  · intro p t ts _ _ hf x hx
    cases hx
  · intro p t ts q mid l1 v next l2 tail rest l3 h1 h2 _ ih1 ih2 ih3 hf x hx
    rcases List.mem_cons.mp hx with rfl | hx
    · exact ⟨ih1 hf, ih2 (fine_rest h1 hf)⟩
    · exact ih3 (fine_rest h2 (fine_rest h1 hf)) x hx
  · exact fun _ _ _ => trivial
  · intro t ts v mid l1 vs rest l2 h1 _ ih1 ih2 hf
    exact ⟨ih1 hf, ih2 (fine_rest h1 hf)⟩
  all_goals intros; trivial

/-- Pairs of which all leaves have types with the property. -/
def LeafPairs (P : Leaf → Prop) (tail : List (Val × Val)) : Prop := ∀ x ∈ tail, x.1.AllLeaves P ∧ x.2.AllLeaves P

theorem leafPairs_flat {P : Leaf → Prop} {tail : List (Val × Val)} (h : LeafPairs P tail) : AllLeavesL P (tail.flatMap fun x => [x.1, x.2]) := by
  induction tail with
  | nil => trivial
  | cons x tail ih =>
    simp only [List.flatMap_cons, List.cons_append, List.nil_append, AllLeavesL]
    exact ⟨(h x (by simp)).1, (h x (by simp)).2, ih (fun y hy => h y (by simp [hy]))⟩

theorem leaves_left {P : Leaf → Prop} {tail : List (Val × Val)} (h : LeafPairs P tail) : ∀ {acc : Val}, Val.AllLeaves P acc → Val.AllLeaves P (leftTree acc tail) := by
  induction tail with
  | nil => exact fun ha => ha
  | cons x tail ih =>
    intro acc ha
    exact ih (fun y hy => h y (by simp [hy])) ⟨ha, (h x (by simp)).1, (h x (by simp)).2, trivial⟩

theorem leaves_right {P : Leaf → Prop} {tail : List (Val × Val)} (h : LeafPairs P tail) : ∀ {first : Val}, Val.AllLeaves P first → Val.AllLeaves P (rightTree first tail) := by
  induction tail with
  | nil => exact fun ha => ⟨ha, trivial⟩
  | cons x tail ih =>
    intro first ha
    exact ⟨ha, (h x (by simp)).1, ih (fun y hy => h y (by simp [hy])) (h x (by simp)).2, trivial⟩

theorem matches_leaves {P : Leaf → Prop} (hP : ∀ l ts v rest, LeafAt l ts v rest → P l) {env : Env} {t : Ty} {ts : List TT} {v : Val} {rest : List TT} {left : Option Span} (h : Matches env t ts v rest left) :
    Val.AllLeaves P v := by
  refine Matches.rec
    (motive_1 := fun t ts v rest left _ => Val.AllLeaves P v)
    (motive_2 := fun us ts vs rest left _ => AllLeavesL P vs)
    (motive_3 := fun t p ts vs rest left _ => AllLeavesL P vs)
    (motive_4 := fun p t ts tail rest left _ => LeafPairs P tail)
    (motive_5 := fun t ts vs rest left _ => AllLeavesL P vs)
    (motive_6 := fun t ts _ => True)
    (motive_7 := fun us ts _ => True)
    (motive_8 := fun t p ts _ => True)
    (motive_9 := fun p t ts _ => True)
    ?_ ?_ ?_ ?_ ?_ ?_ ?_ ?_ ?_ ?_ ?_ ?_ ?_ ?_
    ?_ ?_ ?_ ?_ ?_ ?_ ?_ ?_ ?_
    ?_ ?_ ?_ ?_ ?_ ?_ ?_ ?_ ?_ ?_ ?_ ?_ ?_ ?_ ?_
    ?_ ?_ ?_ ?_ ?_ ?_ ?_ h
  · intro l ts v rest h
    exact hP _ _ _ _ h
  · intro x fields ts vs rest left hx _ ih
    exact ih
  · intro x before v after ts vs rest left hx _ _ ihb ih
    exact ih
  · intro t ts v rest left _ ih
    exact ih
  · intro p t ts a mid l1 b rest l2 h1 _ ih1 ih2
    exact ⟨ih1, ih2, trivial⟩
  · intro p t ts _ ih
    exact trivial
  · intro g d t ts inner sp rest v unread l1 l2 hg hn _ hu ih
    exact ih
  · intro t p ts vs rest left _ ih
    exact ih
  · intro t p ts v mid l1 tail rest l2 h1 _ ih1 ih2
    exact ⟨ih1, leafPairs_flat ih2⟩
  · intro t ts vs rest left _ ih
    exact ih
  · intro o r ts v mid l1 tail rest l2 h1 _ ih1 ih2
    exact leaves_left ih2 ⟨ih1, trivial⟩
  · intro o l ts v mid l1 tail rest l2 h1 _ ih1 ih2
    exact leaves_right ih2 ih1
  · intro l r ts v rest left _ ih
    exact ⟨ih, trivial⟩
  · intro l r ts v rest left _ _ ih1 ih2
    exact ⟨ih2, trivial⟩
  · intros; trivial
  · intro t us ts v mid l1 vs rest l2 h1 _ ih1 ih2
    exact ⟨ih1, ih2⟩
  · intros; trivial
  · intro t p ts v left h0 hm ih
    exact ⟨ih, trivial⟩
  · intro t p ts v mid l1 q next l2 vs rest l3 h0 h1 h2 hq hr ih1 ih2 ih3
    exact ⟨ih1, ih2, ih3⟩
  · intro p t ts _ _ x hx
    cases hx
  · intro p t ts q mid l1 v next l2 tail rest l3 h1 h2 _ ih1 ih2 ih3 x hx
    rcases List.mem_cons.mp hx with rfl | hx
    · exact ⟨ih1, ih2⟩
    · exact ih3 x hx
  · exact fun _ _ => trivial
  · intro t ts v mid l1 vs rest l2 h1 _ ih1 ih2
    exact ⟨ih1, ih2⟩
  all_goals intros; trivial

/-- What `parse2` accepts from a stream as the lexer makes it, without `-0`, survives printing. -/
theorem accepted_survives {env : Env} {t : Ty} {ts : List TT} {v : Val} (h : Accepts env t ts v) (hord : Ordinary ts) (hz : NoMinusZero ts) : Survives v := by
  obtain ⟨s', n, hn⟩ := accepts_parses h
  obtain ⟨rest, left, hm, _⟩ := (parse_peg env n t _).1 v s' hn
  exact matches_survives hm (matches_nozero hm (fine_of_ordinary hord hz))

end Parsel
