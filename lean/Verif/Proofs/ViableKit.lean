import Verif.Proofs.Viable
import Verif.Proofs.Joins
import Verif.Proofs.Reparse
import Verif.Proofs.Own
import Verif.Proofs.Furthest

/-! What is kept before an error, and what was not read. -/

namespace Parsel
open Spec

section

theorem shortened_occurs_lit {a b : List TT} (h : Shortened a b) {r : Text} {sp : Span} : Occurs (.lit r sp) b → Occurs (.lit r sp) a := by
  induction h with
  | nil => exact id
  | @token t a b _ ih =>
    intro ho
    cases ho with
    | head => exact .head
    | tail ho => exact .tail (ih ho)
    | inside ho => exact .inside ho
  | group _ _ ih1 ih2 =>
    intro ho
    cases ho with
    | tail ho => exact .tail (ih2 ho)
    | inside ho => exact .inside (ih1 ho).left

theorem shortened_visible {a b : List TT} (h : Shortened a b) : Visible a → Visible b := by
  induction h with
  | nil => exact id
  | @token t a b _ ih =>
    intro hv i sp ho
    cases ho with
    | head => exact hv _ _ .head
    | tail ho => exact ih hv.tail _ _ ho
    | inside ho => exact hv _ _ (.inside ho)
  | @group d i j gone sp a b _ _ ih1 ih2 =>
    intro hv i sp ho
    cases ho with
    | head => exact hv _ _ .head
    | tail ho => exact ih2 hv.tail _ _ ho
    | inside ho => exact ih1 hv.inner.left _ _ ho

theorem shortened_segment {a b : List TT} (h : Shortened a b) {spc : Spacing} {sp sp' : Span} {r : Text} : Segment [.punct '-' spc sp, .lit r sp'] b → Segment [.punct '-' spc sp, .lit r sp'] a := by
  induction h with
  | nil => exact id
  | @token t a b hab ih =>
    intro hs
    rcases segment_append (a := [t]) hs with hs | hs | ⟨a', b', e1, e2⟩
    · exact hs.left (b := a)
    · exact (ih hs).right (a := [t])
    · cases a' with
      | cons _ _ => simp at e1
      | nil =>
        simp only [List.nil_append, List.cons.injEq, and_true] at e1
        subst e1 e2
        cases hab with
        | @token _ a b _ => exact .here (a := []) (c := a)
  | @group d i j gone sp a b _ hab ih1 ih2 =>
    intro hs
    rcases segment_append (a := [.group d j sp]) hs with hs | hs | ⟨a', b', e1, e2⟩
    · obtain ⟨d', i', sp', e, hs⟩ := segment_one hs
      cases e
      exact .inside (a := []) (ih1 hs).left
    · exact (ih2 hs).right (a := [_])
    · cases a' with
      | cons _ _ => simp at e1
      | nil => simp at e1

theorem fine_shortened {a b : List TT} (h : Shortened a b) (hf : Fine a) : Fine b :=
  ⟨shortened_visible h hf.vis, fun r sp ho => hf.2 r sp (shortened_occurs_lit h ho), fun spc sp r sp' hs => hf.3 spc sp r sp' (shortened_segment h hs)⟩

theorem visible_append {a b : List TT} (ha : Visible a) (hb : Visible b) : Visible (a ++ b) := fun i sp ho => (occurs_append_or ho).elim (ha i sp) (hb i sp)

theorem tame_append {a b : List TT} (ha : Tame a) (hb : Tame b) : Tame (a ++ b) := fun r sp ho => (occurs_append_or ho).elim (ha r sp) (hb r sp)

theorem fine_append {a b : List TT} (ha : Fine a) (hb : Fine b) (h : ∀ r sp b', b = .lit r sp :: b' → ¬ IntLit r 0) : Fine (a ++ b) := by
  refine ⟨visible_append ha.vis hb.vis, fun r sp ho => (occurs_append_or ho).elim (ha.2 r sp) (hb.2 r sp), fun spc sp r sp' hs => ?_⟩
  rcases segment_append hs with hs | hs | ⟨a', b', e1, e2⟩
  · exact ha.3 _ _ _ _ hs
  · exact hb.3 _ _ _ _ hs
  · exact h _ _ _ e2

theorem segment_occurs {p q : TT} {ts : List TT} (h : Segment [p, q] ts) : Occurs q ts := by
  have : ∀ {b ts : List TT}, Segment b ts → b = [p, q] → Occurs q ts := by
    intro b ts h
    induction h with
    | @here a c => rintro rfl; rw [List.append_assoc]; exact Spec.Occurs.right (.tail .head)
    | @inside a d inner sp c _ ih => intro e; exact Spec.Occurs.right (.inside (ih e))
  exact this h rfl

theorem fine_of_tame {ts : List TT} (h : Visible ts ∧ Tame ts) : Fine ts :=
  ⟨h.1, fun r sp ho => (h.2 r sp ho).1, fun _ _ _ _ hs => (h.2 _ _ (segment_occurs hs)).2⟩

theorem fine_group_one {d : Delim} {i : List TT} {sp : Span} (hd : d ≠ .none) (hf : Fine i) : Fine [.group d i sp] := by
  refine ⟨fun j s ho => ?_, fun r s ho => ?_, fun spc sp' r sp'' hs => ?_⟩
  · cases ho with
    | head => exact hd rfl
    | tail ho => cases ho
    | inside ho => exact hf.vis _ _ ho
  · cases ho with
    | tail ho => cases ho
    | inside ho => exact hf.2 _ _ ho
  · obtain ⟨d', i', s', e, hs⟩ := segment_one hs
    cases e
    exact hf.3 _ _ _ _ hs

/-- What is made of a stream without minus zeros is one. -/
theorem KeepsF.fine {Same : List TT → List TT → Prop} (hS : ∀ a b, Same a b → Shortened a b) {ts cur new : List TT} {sc sc' : Span}
    (h : KeepsF Same (fun z => Visible z ∧ Tame z) ts sc cur sc' new) : Fine ts → Fine new := by
  induction h with
  | here h hn =>
    intro hf
    refine fine_append (fine_shortened (hS _ _ h) hf.left) (fine_of_tame hn) ?_
    rintro r sp b' rfl
    exact (hn.2 r sp .head).2
  | @into before before' d inner sp rest cur scope' new more scope h _ hm ih =>
    intro hf
    have hd : d ≠ .none := by
      rintro rfl
      exact hf.right.vis _ _ .head
    have h1 : Fine (.group d new sp :: more) := by
      refine fine_append (a := [_]) (fine_group_one hd (ih hf.right.inside)) (fine_of_tame hm) ?_
      rintro r sp b' rfl
      exact (hm.2 r sp .head).2
    refine fine_append (fine_shortened (hS _ _ h) hf.left) h1 ?_
    rintro r sp b' e
    cases e

theorem ordinary_of_fine {ts : List TT} (h : Fine ts) : Ordinary ts ∧ NoMinusZero ts :=
  ⟨⟨h.2, fun i sp ho => absurd ho (h.vis i sp)⟩, by unfold NoMinusZero; rw [dissolve_visible h.vis]; exact h.3⟩

end

variable [Ext]

/-! ### what was read -/

mutual
/-- The unread ends of groups can be dropped. -/
theorem reads_shortened : ∀ (v : Val) (i : Bool) (a : List TT), Reads i v a → ∃ a', Shortened a a' ∧ Reads false v a' ∧ (i = false → a' = a)
  | .leaf l v, i, a, h => ⟨a, shortened_refl a, ⟨rfl, h.2⟩, fun _ => rfl⟩
  | .group d sp v, i, a, h => by
    obtain ⟨x, y, j, rfl, h1, rfl⟩ := h
    obtain ⟨x', h2, h3, h4⟩ := reads_shortened v j x h1
    refine ⟨[.group d x' sp], .group h2 .nil, ⟨x', [], false, by simp, h3, rfl⟩, fun e => ?_⟩
    simp only [Bool.or_eq_false_iff, Bool.not_eq_false', List.isEmpty_iff] at e
    rw [h4 e.1, e.2, List.append_nil]
  | .node _ vs, i, a, h => readsL_shortened vs i a h
theorem readsL_shortened : ∀ (vs : List Val) (i : Bool) (a : List TT), ReadsL i vs a → ∃ a', Shortened a a' ∧ ReadsL false vs a' ∧ (i = false → a' = a)
  | [], i, a, h => ⟨a, shortened_refl a, ⟨rfl, h.2⟩, fun _ => rfl⟩
  | v :: vs, i, a, h => by
    obtain ⟨x, y, j, k, rfl, h1, h2, rfl⟩ := h
    obtain ⟨x', h3, h4, h5⟩ := reads_shortened v j x h1
    obtain ⟨y', h6, h7, h8⟩ := readsL_shortened vs k y h2
    refine ⟨x' ++ y', shortened_append h3 h6, ⟨x', y', false, false, rfl, h4, h7, rfl⟩, fun e => ?_⟩
    simp only [Bool.or_eq_false_iff] at e
    rw [h5 e.1, h8 e.2]
end

theorem matches_split {env : Env} {t : Ty} {ts : List TT} {v : Val} {rest : List TT} {left : Option Span} (h : Matches env t ts v rest left) (hv : Visible ts) :
    ∃ a, ts = a ++ rest ∧ Reads left.isSome v a := by
  obtain ⟨n, hn⟩ := matches_parses h ⟨ts, .callSite, none⟩ rfl
  obtain ⟨_, a, i, h1, h2, h3⟩ := parse_reads env n _ _ _ _ hn
  simp only [PState.after, Option.none_or, Option.isSome_none, Bool.false_or] at h1 h3
  have hr : Visible rest := (reach_passed (parse_moves env n _ _ _ _ hn).reach hv).1
  rw [dissolve_visible hv, dissolve_visible hr] at h1
  exact ⟨a, h1, by rw [h3]; exact readsL_single.mp h2⟩

mutual
/-- What was read can be printed again if no float in it is too large and keywords are plain words. -/
theorem reads_printable : ∀ (v : Val) (i : Bool) (ts : List TT), Reads i v ts → NoOverflow ts → v.AllLeaves (fun l => ∀ kw, l = .keyword kw → identOk kw = true) → Printable v
  | .leaf l v, i, ts, h, ho, hk => by
    cases h.2 with
    | unit hl => rcases hl with rfl | rfl | rfl <;> simp [Printable]
    | ident hl => rcases hl with ⟨_, rfl⟩ | rfl <;> simp [Printable]
    | keyword => exact hk _ rfl
    | kwToken => simp [Printable]
    | punct _ => simp [Printable]
    | lit h =>
      simp only [Printable]
      cases h with
      | float h1 h2 => exact ho _ _ .head _ _ (.inl h1) h2
      | minusFloat _ h1 h2 => exact ho _ _ (.tail .head) _ _ (.inr h1) h2
      | _ => trivial
  | .group d sp v, i, ts, h, ho, hk => by
    obtain ⟨x, y, j, rfl, h1, rfl⟩ := h
    exact reads_printable v j x h1 (fun r s hr => ho r s (.inside hr.left)) hk
  | .node _ vs, i, ts, h, ho, hk => readsL_printable vs i ts h ho hk
theorem readsL_printable : ∀ (vs : List Val) (i : Bool) (ts : List TT), ReadsL i vs ts → NoOverflow ts → AllLeavesL (fun l => ∀ kw, l = .keyword kw → identOk kw = true) vs → PrintableL vs
  | [], _, _, _, _, _ => trivial
  | v :: vs, i, ts, h, ho, hk => by
    obtain ⟨x, y, j, k, rfl, h1, h2, rfl⟩ := h
    exact ⟨reads_printable v j x h1 (fun r s hr => ho r s hr.left) hk.1, readsL_printable vs k y h2 (fun r s hr => ho r s hr.right) hk.2⟩
end

/-! ### groups that are read to the end -/

theorem toEnd_rest {env : Env} {t p : Ty} : ∀ {ts : List TT} {vs : List Val} {rest : List TT} {left : Option Span}, MatchesToEnd env t p ts vs rest left → rest = []
  | _, _, _, _, .done => rfl
  | _, _, _, _, .last _ _ => rfl
  | _, _, _, _, .more _ _ _ _ h => toEnd_rest h

theorem seq_last {env : Env} {u : Ty} (hu : ∀ {ts v rest left}, Matches env u ts v rest left → rest = []) : ∀ {us : List Ty} {ts : List TT} {vs : List Val} {rest : List TT}
    {left : Option Span}, MatchesSeq env us ts vs rest left → us.getLast? = some u → rest = []
  | [], _, _, _, _, _, h => by simp at h
  | [_], _, _, _, _, .cons h1 .nil, h => by
    simp only [List.getLast?_singleton, Option.some.injEq] at h
    subst h
    exact hu h1
  | _ :: u2 :: us, _, _, _, _, .cons _ hs, h => seq_last hu hs (by rw [← h, List.getLast?_cons_cons])

theorem toLast_rest {env : Env} {t : Ty} (h : ToLast env t) : ∀ {ts : List TT} {v : Val} {rest : List TT} {left : Option Span}, Matches env t ts v rest left → rest = [] := by
  induction h with
  | eof => intro ts v rest left hm; cases hm with
    | leaf h => cases h; rfl
    | group hg _ _ _ => cases hg
  | punctuated => intro ts v rest left hm; cases hm with
    | punctuated h => exact toEnd_rest h
    | group hg _ _ _ => cases hg
  | boxed _ ih => intro ts v rest left hm; cases hm with
    | boxed h => exact ih h
    | group hg _ _ _ => cases hg
  | either _ _ ih1 ih2 => intro ts v rest left hm; cases hm with
    | eitherLeft h => exact ih1 h
    | eitherRight _ h => exact ih2 h
    | group hg _ _ _ => cases hg
  | struct hx hu _ ih => intro ts v rest left hm; cases hm with
    | struct hx' h => rw [hx] at hx'; cases hx'; exact seq_last ih h hu
    | enum hx' _ _ => rw [hx] at hx'; cases hx'
    | group hg _ _ _ => cases hg
  | enum hx hl _ ih => intro ts v rest left hm; cases hm with
    | struct hx' h => rw [hx] at hx'; cases hx'
    | enum hx' _ h => rw [hx] at hx'; cases hx'; exact seq_last (ih _ (by simp)) h (hl _ (by simp))
    | group hg _ _ _ => cases hg

section
variable {env : Env} {G : List Ty} (closed : ∀ t ∈ G, ∀ u, PartOf env u t → u ∈ G) (hr : GroupsRead env G)
include closed hr

mutual
/-- Then nothing is left unread in them. -/
theorem matches_none : ∀ {t : Ty} {ts : List TT} {v : Val} {rest : List TT} {left : Option Span}, Matches env t ts v rest left → t ∈ G → left = none
  | _, _, _, _, _, .leaf _, _ => rfl
  | _, _, _, _, _, .struct hx h, hG => matchesSeq_none h fun u hu => closed _ hG _ (.struct hx hu)
  | _, _, _, _, _, .enum hx _ h, hG => matchesSeq_none h fun u hu => closed _ hG _ (.enum hx (by simp) hu)
  | _, _, _, _, _, .boxed h, hG => matches_none h (closed _ hG _ .boxed)
  | _, _, _, _, _, .maybeSome h1 h2, hG => by rw [matches_none h1 (closed _ hG _ (.maybe (by simp))), matches_none h2 (closed _ hG _ (.maybe (by simp)))]; rfl
  | _, _, _, _, _, .maybeNone _, _ => rfl
  | _, _, _, _, _, .group hg hn h hu, hG => by
    rw [matches_none h (closed _ hG _ (by cases hg <;> constructor))]
    have := toLast_rest (hr _ hG _ _ hg) h
    subst this
    rw [← (firstUnread_iff _ _).mp hu]
    rfl
  | _, _, _, _, _, .punctuated h, hG => matchesToEnd_none h (closed _ hG _ (.punctuated (by simp))) (closed _ hG _ (.punctuated (by simp)))
  | _, _, _, _, _, .separated h1 h2, hG => by
    rw [matches_none h1 (closed _ hG _ (.separated (by simp))), matchesTail_none h2 (closed _ hG _ (.separated (by simp))) (closed _ hG _ (.separated (by simp)))]; rfl
  | _, _, _, _, _, .any h, hG => matchesMany_none h (closed _ hG _ .any)
  | _, _, _, _, _, .leftAssoc h1 h2, hG => by
    rw [matches_none h1 (closed _ hG _ (.leftAssoc (by simp))), matchesTail_none h2 (closed _ hG _ (.leftAssoc (by simp))) (closed _ hG _ (.leftAssoc (by simp)))]; rfl
  | _, _, _, _, _, .rightAssoc h1 h2, hG => by
    rw [matches_none h1 (closed _ hG _ (.rightAssoc (by simp))), matchesTail_none h2 (closed _ hG _ (.rightAssoc (by simp))) (closed _ hG _ (.rightAssoc (by simp)))]; rfl
  | _, _, _, _, _, .eitherLeft h, hG => matches_none h (closed _ hG _ (.either (by simp)))
  | _, _, _, _, _, .eitherRight _ h, hG => matches_none h (closed _ hG _ (.either (by simp)))
theorem matchesSeq_none : ∀ {us : List Ty} {ts : List TT} {vs : List Val} {rest : List TT} {left : Option Span}, MatchesSeq env us ts vs rest left → (∀ u ∈ us, u ∈ G) → left = none
  | _, _, _, _, _, .nil, _ => rfl
  | _, _, _, _, _, .cons h1 h2, hG => by rw [matches_none h1 (hG _ (List.mem_cons_self ..)), matchesSeq_none h2 fun u hu => hG u (List.mem_cons_of_mem _ hu)]; rfl
theorem matchesToEnd_none : ∀ {t p : Ty} {ts : List TT} {vs : List Val} {rest : List TT} {left : Option Span}, MatchesToEnd env t p ts vs rest left → t ∈ G → p ∈ G → left = none
  | _, _, _, _, _, _, .done, _, _ => rfl
  | _, _, _, _, _, _, .last _ h, ht, _ => matches_none h ht
  | _, _, _, _, _, _, .more _ h1 _ h2 h3, ht, hp => by rw [matches_none h1 ht, matches_none h2 hp, matchesToEnd_none h3 ht hp]; rfl
theorem matchesTail_none : ∀ {p t : Ty} {ts : List TT} {vs : List (Val × Val)} {rest : List TT} {left : Option Span}, MatchesTail env p t ts vs rest left → t ∈ G → p ∈ G → left = none
  | _, _, _, _, _, _, .done _, _, _ => rfl
  | _, _, _, _, _, _, .more h1 h2 h3, ht, hp => by rw [matches_none h1 hp, matches_none h2 ht, matchesTail_none h3 ht hp]; rfl
theorem matchesMany_none : ∀ {t : Ty} {ts : List TT} {vs : List Val} {rest : List TT} {left : Option Span}, MatchesMany env t ts vs rest left → t ∈ G → left = none
  | _, _, _, _, _, .done _, _ => rfl
  | _, _, _, _, _, .more h1 h2, ht => by rw [matches_none h1 ht, matchesMany_none h2 ht]; rfl
end
end

/-! ### the first token that was not read -/

/-- `vs` were read from the front of `ts`; without what was left unread in groups they are read from `a'`, and before the first unread token nothing changes. -/
def Part (ts : List TT) (vs : List Val) (rest : List TT) (left : Option Span) : Prop :=
  Visible ts → ∃ a a', ts = a ++ rest ∧ ReadsL false vs a' ∧ Shortened a a' ∧ (left = none → a' = a) ∧
    ∀ sp, left = some sp → ∀ scope, ∃ x r sc, x.span = sp ∧ ∀ z, Keeps Eq ts scope (x :: r) sc (a' ++ z)

theorem Part.nil (ts : List TT) : Part ts [] ts none := fun _ => ⟨[], [], rfl, ⟨rfl, rfl⟩, .nil, fun _ => rfl, fun _ h => by cases h⟩

theorem keeps_behind {ts cur new : List TT} {sc sc' : Span} (a : List TT) (h : Keeps Eq ts sc cur sc' new) : Keeps Eq (a ++ ts) sc cur sc' (a ++ new) := by
  cases h with
  | here e => subst e; rw [← List.append_assoc, ← List.append_assoc]; exact .here rfl
  | into e hk => subst e; rw [← List.append_assoc, ← List.append_assoc]; exact .into rfl hk

theorem Part.append {ts mid rest : List TT} {vs ws : List Val} {l1 l2 : Option Span} (h1 : Part ts vs mid l1) (h2 : Part mid ws rest l2) : Part ts (vs ++ ws) rest (l1.or l2) := by
  intro hv
  obtain ⟨a, a', ha, r1, s1, n1, u1⟩ := h1 hv
  obtain ⟨b, b', hb, r2, s2, n2, u2⟩ := h2 (by rw [ha] at hv; exact hv.right)
  refine ⟨a ++ b, a' ++ b', by rw [ha, hb, List.append_assoc], readsL_append (i := false) (j := false) r1 r2, shortened_append s1 s2, ?_, ?_⟩
  · intro h
    rw [Option.or_eq_none_iff] at h
    rw [n1 h.1, n2 h.2]
  · intro sp h scope
    cases l1 with
    | some x =>
      simp only [Option.some_or, Option.some.injEq] at h
      subst h
      obtain ⟨y, r, sc, e, hk⟩ := u1 _ rfl scope
      exact ⟨y, r, sc, e, fun z => by rw [List.append_assoc]; exact hk _⟩
    | none =>
      rw [Option.none_or] at h
      obtain ⟨y, r, sc, e, hk⟩ := u2 _ h scope
      refine ⟨y, r, sc, e, fun z => ?_⟩
      rw [n1 rfl, List.append_assoc, ha]
      exact keeps_behind a (hk z)

theorem Part.wrap {ts rest : List TT} {vs ws : List Val} {left : Option Span} (h : Part ts vs rest left) (hw : ∀ a, ReadsL false vs a → ReadsL false ws a) : Part ts ws rest left := by
  intro hv
  obtain ⟨a, a', ha, r1, h1⟩ := h hv
  exact ⟨a, a', ha, hw _ r1, h1⟩

theorem Part.node {ts rest : List TT} {vs : List Val} {left : Option Span} (h : Part ts vs rest left) (tag : Tag) : Part ts [.node tag vs] rest left :=
  h.wrap fun _ hr => readsL_single.mpr hr

theorem reads_leftTree : ∀ {tail : List (Val × Val)} {acc : Val} {a : List TT}, ReadsL false (acc :: tail.flatMap fun x => [x.1, x.2]) a → Reads false (leftTree acc tail) a
  | [], _, _, h => readsL_single.mp h
  | (q, v) :: tail, acc, a, h => by
    refine reads_leftTree (tail := tail) (acc := .node .leftBin [acc, q, v]) ?_
    obtain ⟨a1, a2, i, j, rfl, r1, ⟨a3, a4, k, l, rfl, r2, ⟨a5, a6, m, n, rfl, r3, r4, e3⟩, e2⟩, e1⟩ := h
    simp only [Bool.false_eq, Bool.or_eq_false_iff] at e1
    obtain ⟨rfl, rfl⟩ := e1
    simp only [Bool.false_eq, Bool.or_eq_false_iff] at e2
    obtain ⟨rfl, rfl⟩ := e2
    simp only [Bool.false_eq, Bool.or_eq_false_iff] at e3
    obtain ⟨rfl, rfl⟩ := e3
    exact ⟨a1 ++ (a3 ++ a5), a6, false, false, by simp, ⟨a1, _, false, false, rfl, r1, ⟨a3, _, false, false, rfl, r2, readsL_single.mpr r3, rfl⟩, rfl⟩, r4, rfl⟩

theorem reads_rightTree : ∀ {tail : List (Val × Val)} {first : Val} {a : List TT}, ReadsL false (first :: tail.flatMap fun x => [x.1, x.2]) a → Reads false (rightTree first tail) a
  | [], _, _, h => h
  | (q, v) :: tail, first, a, h => by
    obtain ⟨a1, a2, i, j, rfl, r1, ⟨a3, a4, k, l, rfl, r2, r3, e2⟩, e1⟩ := h
    simp only [Bool.false_eq, Bool.or_eq_false_iff] at e1
    obtain ⟨rfl, rfl⟩ := e1
    simp only [Bool.false_eq, Bool.or_eq_false_iff] at e2
    obtain ⟨rfl, rfl⟩ := e2
    exact ⟨a1, _, false, false, rfl, r1, ⟨a3, _, false, false, rfl, r2, readsL_single.mpr (reads_rightTree r3), rfl⟩, rfl⟩

theorem Part.group {d : Delim} {inner rest ts unread : List TT} {sp : Span} {v : Val} {l1 l2 : Option Span} (hn : Next ts (.group d inner sp) rest) (h : Part inner [v] unread l1)
    (hu : FirstUnread unread l2) : Part ts [.group d sp v] rest (l1.or l2) := by
  intro hv
  have hc := next_visible hv hn
  subst hc
  obtain ⟨a, a', ha, r1, s1, n1, u1⟩ := h hv.inner
  refine ⟨[.group d inner sp], [.group d a' sp], rfl, readsL_single.mpr ⟨a', [], false, by simp, readsL_single.mp r1, rfl⟩, ?_, ?_, ?_⟩
  · rw [ha]; exact .group s1 .nil
  · intro e
    rw [Option.or_eq_none_iff] at e
    rw [n1 e.1, ha]
    obtain ⟨_, e⟩ := e
    subst e
    have hvis : Visible unread := by have := hv.inner; rw [ha] at this; exact this.right
    cases hu with
    | nothing hu =>
      cases unread with
      | nil => rw [List.append_nil]
      | cons t unread =>
        refine absurd (Next.here ?_) (hu t unread)
        rintro i s rfl
        exact hvis _ _ .head
  · intro loc e scope
    cases l1 with
    | some x =>
      simp only [Option.some_or, Option.some.injEq] at e
      subst e
      obtain ⟨y, r, sc, e, hk⟩ := u1 _ rfl sp.closeOf
      refine ⟨y, r, sc, e, fun z => Keeps.into (before := []) (before' := []) rfl ?_⟩
      have := hk []
      rwa [List.append_nil] at this
    | none =>
      rw [Option.none_or] at e
      subst e
      have hvis : Visible unread := by have := hv.inner; rw [ha] at this; exact this.right
      cases hu with
      | @token t r hn =>
        have hc := next_visible hvis hn
        refine ⟨t, r, sp.closeOf, rfl, fun z => Keeps.into (before := []) (before' := []) rfl ?_⟩
        rw [n1 rfl, ha, hc]
        have := Keeps.here (Same := Eq) (before := a) (before' := a) (cur := t :: r) (new := []) (scope := sp.closeOf) rfl
        rwa [List.append_nil] at this

mutual
theorem matches_part {env : Env} : ∀ {t : Ty} {ts : List TT} {v : Val} {rest : List TT} {left : Option Span}, Matches env t ts v rest left → Part ts [v] rest left
  | _, _, _, _, _, .leaf hl => fun hv => by
    obtain ⟨a, ha, hr⟩ := matches_split (env := env) (.leaf hl) hv
    exact ⟨a, a, ha, readsL_single.mpr hr, shortened_refl a, fun _ => rfl, fun _ h => by cases h⟩
  | _, _, _, _, _, .struct _ h => (matchesSeq_part h).node _
  | _, _, _, _, _, .enum _ _ h => (matchesSeq_part h).node _
  | _, _, _, _, _, .boxed h => matches_part h
  | _, _, _, _, _, .maybeSome h1 h2 => ((matches_part h1).append (matches_part h2)).node _
  | _, _, _, _, _, .maybeNone _ => (Part.nil _).node _
  | _, _, _, _, _, .group _ hn h hu => (matches_part h).group hn hu
  | _, _, _, _, _, .punctuated h => (matchesToEnd_part h).node _
  | _, _, _, _, _, .separated h1 h2 => ((matches_part h1).append (matchesTail_part h2)).node _
  | _, _, _, _, _, .any h => (matchesMany_part h).node _
  | _, _, _, _, _, .leftAssoc h1 h2 => (((matches_part h1).node .leftRhs).append (matchesTail_part h2)).wrap fun _ hr => readsL_single.mpr (reads_leftTree hr)
  | _, _, _, _, _, .rightAssoc h1 h2 => ((matches_part h1).append (matchesTail_part h2)).wrap fun _ hr => readsL_single.mpr (reads_rightTree hr)
  | _, _, _, _, _, .eitherLeft h => (matches_part h).node _
  | _, _, _, _, _, .eitherRight _ h => (matches_part h).node _
theorem matchesSeq_part {env : Env} : ∀ {us : List Ty} {ts : List TT} {vs : List Val} {rest : List TT} {left : Option Span}, MatchesSeq env us ts vs rest left → Part ts vs rest left
  | _, _, _, _, _, .nil => .nil _
  | _, _, _, _, _, .cons h1 h2 => (matches_part h1).append (matchesSeq_part h2)
theorem matchesToEnd_part {env : Env} : ∀ {t p : Ty} {ts : List TT} {vs : List Val} {rest : List TT} {left : Option Span}, MatchesToEnd env t p ts vs rest left → Part ts vs rest left
  | _, _, _, _, _, _, .done => .nil _
  | _, _, _, _, _, _, .last _ h => matches_part h
  | _, _, _, _, _, _, .more _ h1 _ h2 h3 => (matches_part h1).append ((matches_part h2).append (matchesToEnd_part h3))
theorem matchesTail_part {env : Env} : ∀ {p t : Ty} {ts : List TT} {vs : List (Val × Val)} {rest : List TT} {left : Option Span}, MatchesTail env p t ts vs rest left →
    Part ts (vs.flatMap fun x => [x.1, x.2]) rest left
  | _, _, _, _, _, _, .done _ => .nil _
  | _, _, _, _, _, _, .more h1 h2 h3 => (matches_part h1).append ((matches_part h2).append (matchesTail_part h3))
theorem matchesMany_part {env : Env} : ∀ {t : Ty} {ts : List TT} {vs : List Val} {rest : List TT} {left : Option Span}, MatchesMany env t ts vs rest left → Part ts vs rest left
  | _, _, _, _, _, .done _ => .nil _
  | _, _, _, _, _, .more h1 h2 => (matches_part h1).append (matchesMany_part h2)
end

end Parsel
