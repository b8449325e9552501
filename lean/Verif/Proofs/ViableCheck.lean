import Verif.Proofs.ViableKit

/-! The checks for C83 are sound. -/

namespace Parsel
open Spec

section
theorem toLast_sound {env : Env} : ∀ {n : Nat} {t : Ty}, toLast env n t = true → ToLast env t
  | 0, _, h => by simp [toLast] at h
  | n + 1, t, h => by
    cases t with
    | leaf l => cases l with
      | eof => exact .eof
      | _ => simp [toLast] at h
    | punctuated t p => exact .punctuated
    | boxed t => exact .boxed (toLast_sound (n := n) h)
    | either l r =>
      simp only [toLast, Bool.and_eq_true] at h
      exact .either (toLast_sound h.1) (toLast_sound h.2)
    | named x =>
      simp only [toLast] at h
      cases hx : env x with
      | struct fields =>
        rw [hx] at h
        simp only at h
        split at h
        · rename_i u hu; exact .struct hx hu (toLast_sound h)
        · cases h
      | enum vs =>
        rw [hx] at h
        simp only [List.all_eq_true] at h
        have hd : ∀ v ∈ vs, ∃ u, (fieldTypes v.fields).getLast? = some u ∧ toLast env n u = true := by
          intro v hv
          have := h v hv
          split at this
          · rename_i u hu; exact ⟨u, hu, this⟩
          · cases this
        refine .enum (last := fun v => (fieldTypes v.fields).getLast?.getD (.leaf .eof)) hx (fun v hv => ?_) (fun v hv => ?_)
        · obtain ⟨u, hu, _⟩ := hd v hv; rw [hu]; rfl
        · obtain ⟨u, hu, h1⟩ := hd v hv; rw [hu]; exact toLast_sound h1
    | _ => simp [toLast] at h

theorem groupsRead_sound {env : Env} {G : List Ty} {n : Nat} (h : groupsRead env G n = true) : GroupsRead env G := by
  intro g hg d t hgt
  have := List.all_eq_true.mp h g hg
  cases hgt <;> exact toLast_sound this

mutual
theorem tameT_sound : ∀ {t : TT}, tameT t = true → Tame [t]
  | .group d ts sp, h, r, s, ho => by
    cases ho with
    | inside ho => exact tame_sound (ts := ts) h r s ho
    | tail ho => cases ho
  | .lit r sp, h, r', s, ho => by
    cases ho with
    | head =>
      simp only [tameT, Bool.and_eq_true, bne_iff_ne, ne_eq] at h
      exact ⟨h.1, fun hz => h.2 ((readNat_iff _ _).mpr hz)⟩
    | tail ho => cases ho
  | .ident _ _, _, r, s, ho => by
    cases ho with
    | tail ho => cases ho
  | .punct _ _ _, _, r, s, ho => by
    cases ho with
    | tail ho => cases ho
theorem tame_sound : ∀ {ts : List TT}, tame ts = true → Tame ts
  | [], _, _, _, ho => by cases ho
  | t :: ts, h, r, s, ho => by
    simp only [tame, Bool.and_eq_true] at h
    exact (occurs_append_or (a := [t]) ho).elim (tameT_sound h.1 r s) (tame_sound h.2 r s)
end
end

variable [Ext]

theorem sampleLeaf_sound {f : Option Ext.F} {l : Leaf} {v : LeafVal} (h : sampleLeaf f l = some v) : LeafTy l v ∧ LeafSurvives l v := by
  cases l with
  | customIdent kws =>
    simp only [sampleLeaf, Option.map_eq_some_iff] at h
    obtain ⟨x, h1, rfl⟩ := h
    have := List.find?_some h1
    simp only [Bool.not_eq_true', List.contains_eq_mem, decide_eq_false_iff_not] at this
    exact ⟨.customIdent this, trivial⟩
  | punct tok =>
    simp only [sampleLeaf] at h
    split at h
    · cases h
    · rename_i hq; cases h; exact ⟨.punct (by simp), hq⟩
  | lit k =>
    cases k <;> simp only [sampleLeaf, Option.some.injEq, Option.map_eq_some_iff] at h
    case float => obtain ⟨x, _, rfl⟩ := h; exact ⟨.float, trivial⟩
    all_goals subst h
    · exact ⟨.bool, trivial⟩
    · exact ⟨.byte, trivial⟩
    · exact ⟨.int (by unfold InI64; decide), trivial⟩
    · exact ⟨.uint (by unfold InU64; decide), trivial⟩
    · exact ⟨.char, trivial⟩
    · exact ⟨.str, trivial⟩
    · exact ⟨.byteStr, trivial⟩
    · exact ⟨.any (by show InU64 1; unfold InU64; decide) (by simp), trivial⟩
  | empty => cases h; exact ⟨.empty, trivial⟩
  | eof => cases h; exact ⟨.eof, trivial⟩
  | notEof => cases h; exact ⟨.notEof, trivial⟩
  | rustIdent => cases h; exact ⟨.rustIdent (by decide), trivial⟩
  | keyword kw => cases h; exact ⟨.keyword, trivial⟩
  | kwToken kw => cases h; exact ⟨.kwToken, trivial⟩

theorem sampleAll_sound {env : Env} {tab : Ty → Option Val} (ht : ∀ u w, tab u = some w → HasTy env u w ∧ Survives w) : ∀ {us : List Ty} {ws : List Val},
    sampleAll tab us = some ws → HasTys env us ws ∧ SurvivesL ws
  | [], ws, h => by cases h; exact ⟨.nil, trivial⟩
  | u :: us, ws, h => by
    simp only [sampleAll] at h
    split at h
    · rename_i w ws' h1 h2
      cases h
      exact ⟨.cons (ht _ _ h1).1 (sampleAll_sound ht h2).1, (ht _ _ h1).2, (sampleAll_sound ht h2).2⟩
    · cases h

theorem sampleOne_sound {env : Env} {f : Option Ext.F} {tab : Ty → Option Val} (ht : ∀ u w, tab u = some w → HasTy env u w ∧ Survives w) {u : Ty} {w : Val}
    (h : sampleOne env f tab u = some w) : HasTy env u w ∧ Survives w := by
  cases u with
  | leaf l =>
    obtain ⟨v, h1, rfl⟩ := Option.map_eq_some_iff.mp h
    exact ⟨.leaf (sampleLeaf_sound h1).1, (sampleLeaf_sound h1).2⟩
  | named x =>
    simp only [sampleOne] at h
    cases hx : env x with
    | struct fields =>
      rw [hx] at h
      obtain ⟨v, h1, rfl⟩ := Option.map_eq_some_iff.mp h
      obtain ⟨h2, h3⟩ := sampleAll_sound ht h1
      exact ⟨.struct hx h2, (fun e => by cases e), h3⟩
    | enum vs =>
      rw [hx] at h
      obtain ⟨v, hv, h1⟩ := List.exists_of_findSome?_eq_some h
      obtain ⟨ws, h4, rfl⟩ := Option.map_eq_some_iff.mp h1
      obtain ⟨h2, h3⟩ := sampleAll_sound ht h4
      exact ⟨.enum hx hv h2, (fun e => by cases e), h3⟩
  | boxed t => exact ⟨.boxed (ht _ _ h).1, (ht _ _ h).2⟩
  | maybe p t => cases h; exact ⟨.absent, (fun e => by cases e), trivial⟩
  | paren t => obtain ⟨v, h1, rfl⟩ := Option.map_eq_some_iff.mp h; exact ⟨.paren (ht _ _ h1).1, (ht _ _ h1).2⟩
  | bracket t => obtain ⟨v, h1, rfl⟩ := Option.map_eq_some_iff.mp h; exact ⟨.bracket (ht _ _ h1).1, (ht _ _ h1).2⟩
  | brace t => obtain ⟨v, h1, rfl⟩ := Option.map_eq_some_iff.mp h; exact ⟨.brace (ht _ _ h1).1, (ht _ _ h1).2⟩
  | punctuated t p => cases h; exact ⟨.punctuated (n := 0) .nil, (fun _ w hw => by simp at hw), trivial⟩
  | separated t p =>
    obtain ⟨v, h1, rfl⟩ := Option.map_eq_some_iff.mp h
    exact ⟨.separated (n := 0) (.cons (ht _ _ h1).1 .nil), (fun e => by cases e), (ht _ _ h1).2, trivial⟩
  | any t => cases h; exact ⟨.any (n := 0) .nil, (fun e => by cases e), trivial⟩
  | leftAssoc o r => obtain ⟨v, h1, rfl⟩ := Option.map_eq_some_iff.mp h; exact ⟨.leftRhs (ht _ _ h1).1, (fun e => by cases e), (ht _ _ h1).2, trivial⟩
  | rightAssoc o l => obtain ⟨v, h1, rfl⟩ := Option.map_eq_some_iff.mp h; exact ⟨.rightLhs (ht _ _ h1).1, (fun e => by cases e), (ht _ _ h1).2, trivial⟩
  | either l r =>
    simp only [sampleOne, Option.or_eq_some_iff] at h
    rcases h with h | ⟨_, h⟩
    · obtain ⟨v, h1, rfl⟩ := Option.map_eq_some_iff.mp h; exact ⟨.left (ht _ _ h1).1, (fun e => by cases e), (ht _ _ h1).2, trivial⟩
    · obtain ⟨v, h1, rfl⟩ := Option.map_eq_some_iff.mp h; exact ⟨.right (ht _ _ h1).1, (fun e => by cases e), (ht _ _ h1).2, trivial⟩

theorem sampleOf_sound {env : Env} {f : Option Ext.F} : ∀ n {u : Ty} {w : Val}, sampleOf env f n u = some w → HasTy env u w ∧ Survives w
  | 0, _, _, h => by cases h
  | n + 1, _, _, h => sampleOne_sound (fun _ _ hw => sampleOf_sound n hw) h

theorem samples_sound {env : Env} {f : Option Ext.F} {G : List Ty} {n : Nat} (h : samples env f G n = true) : Samples env G := by
  intro u hu
  have := List.all_eq_true.mp h u hu
  split at this
  · rename_i out ho
    obtain ⟨w, h1, h2⟩ := Option.bind_eq_some_iff.mp ho
    obtain ⟨h3, h4⟩ := sampleOf_sound n h1
    exact ⟨w, out, h3, h4, h2, tame_sound this⟩
  · cases this

/-! ### the tools that the proof of viable prefixes needs -/

section
variable {env : Env} {G : List Ty}

theorem whole_of_match (strong : Prop) {u : Ty} {ts a a' : List TT} {v : Val} {rest : List TT} {left : Option Span} (hm : Matches env u ts v rest left) (hr : Reads false v a')
    (hf : strong → Fine ts) (hp : strong → Printable v) : Whole env strong u v a' :=
  ⟨matches_hasTy hm, hr, fun hs => ⟨matches_survives hm (matches_nozero hm (by rw [dissolve_visible (hf hs).vis]; exact hf hs)), hp hs⟩⟩

theorem noOverflow_right {a b : List TT} (h : NoOverflow (a ++ b)) : NoOverflow b := fun r sp ho => h r sp ho.right

theorem noOverflow_left {a b : List TT} (h : NoOverflow (a ++ b)) : NoOverflow a := fun r sp ho => h r sp ho.left

theorem noOverflow_shortened {a b : List TT} (h : NoOverflow a) (hs : Shortened a b) : NoOverflow b := fun r sp ho => h r sp (shortened_occurs_lit hs ho)

theorem keywords_plain (hS : Samples env G) {kw : Text} (h : Ty.leaf (.keyword kw) ∈ G) : identOk kw = true := by
  obtain ⟨w, out, h1, _, h2, _⟩ := hS _ h
  have hp := (formed_prints (hasTy_formed h1)).mp (by rw [h2]; rfl)
  cases h1 with
  | leaf _ => exact hp

theorem leaves_plain (closed : ∀ t ∈ G, ∀ u, PartOf env u t → u ∈ G) (hS : Samples env G) {u : Ty} (hu : u ∈ G) {v : Val} (h : HasTy env u v) :
    v.AllLeaves (fun l => ∀ kw, l = .keyword kw → identOk kw = true) :=
  allLeaves_mono (fun l hl kw e => keywords_plain hS (e ▸ hl)) v (hasTy_leaves (G := fun t => t ∈ G) closed h hu)

theorem kit_weak (laws : FloatLaws) (closed : ∀ t ∈ G, ∀ u, PartOf env u t → u ∈ G) (hP : Productive env G) (Same : List TT → List TT → Prop) (hnil : Same [] [])
    (happ : ∀ a a' b b', Same a a' → Same b b' → Same (a ++ b) (a' ++ b'))
    (hread : ∀ u ∈ G, ∀ ts v rest left, Visible ts → Matches env u ts v rest left → ∃ a a', ts = a ++ rest ∧ Same a a' ∧ Reads false v a') :
    Kit env G False Same (fun _ => True) Visible where
  closed := closed
  fill u hu := by
    obtain ⟨w, out, h1, h2⟩ := hP u hu
    exact ⟨w, out, ⟨h1, (formed_own laws (hasTy_formed h1) h2).1, fun h => h.elim⟩, trivial⟩
  read u hu ts v rest left hv hm := by
    obtain ⟨a, a', h1, h2, h3⟩ := hread u hu ts v rest left hv hm
    exact ⟨a, a', h1, h2, whole_of_match (a := a) False hm h3 (fun h => h.elim) (fun h => h.elim)⟩
  suffix _ _ h := h.right
  inner _ _ _ _ h := h.inner
  visible _ h := h
  sameNil := hnil
  sameAppend := happ
  newNil := trivial
  newAppend _ _ _ _ := trivial

theorem kit_strong (laws : FloatLaws) (closed : ∀ t ∈ G, ∀ u, PartOf env u t → u ∈ G) (hS : Samples env G) (Same : List TT → List TT → Prop) (hnil : Same [] [])
    (happ : ∀ a a' b b', Same a a' → Same b b' → Same (a ++ b) (a' ++ b')) (hsub : ∀ a b, Same a b → Shortened a b)
    (hread : ∀ u ∈ G, ∀ ts v rest left, Visible ts → Matches env u ts v rest left → ∃ a a', ts = a ++ rest ∧ Same a a' ∧ Reads false v a') :
    Kit env G True Same (fun z => Visible z ∧ Tame z) (fun ts => Fine ts ∧ NoOverflow ts) where
  closed := closed
  fill u hu := by
    obtain ⟨w, out, h1, h2, h3, h4⟩ := hS u hu
    obtain ⟨h5, h6⟩ := formed_own laws (hasTy_formed h1) h3
    exact ⟨w, out, ⟨h1, h5, fun _ => ⟨h2, (formed_prints (hasTy_formed h1)).mp (by rw [h3]; rfl)⟩⟩, h6 ▸ visible_dissolve out, h4⟩
  read u hu ts v rest left hv hm := by
    obtain ⟨a, a', h1, h2, h3⟩ := hread u hu ts v rest left hv.1.vis hm
    exact ⟨a, a', h1, h2, whole_of_match (a := a) True hm h3 (fun _ => hv.1) (fun _ => reads_printable v false a' h3
      (noOverflow_shortened (noOverflow_left (h1 ▸ hv.2)) (hsub _ _ h2)) (leaves_plain closed hS hu (matches_hasTy hm)))⟩
  suffix _ _ h := ⟨h.1.right, noOverflow_right h.2⟩
  inner _ _ _ _ h := ⟨h.1.inside, fun r sp ho => h.2 r sp (.inside ho)⟩
  visible _ h := h.1.vis
  sameNil := hnil
  sameAppend := happ
  newNil := ⟨(fun _ _ h => by cases h), (fun _ _ h => by cases h)⟩
  newAppend _ _ h1 h2 := ⟨visible_append h1.1 h2.1, tame_append h1.2 h2.2⟩

theorem read_shortened {u : Ty} {ts : List TT} {v : Val} {rest : List TT} {left : Option Span} (hv : Visible ts) (hm : Matches env u ts v rest left) :
    ∃ a a', ts = a ++ rest ∧ Shortened a a' ∧ Reads false v a' := by
  obtain ⟨a, a', h1, h2, h3, _⟩ := matches_part hm hv
  exact ⟨a, a', h1, h3, readsL_single.mp h2⟩

theorem read_exact (closed : ∀ t ∈ G, ∀ u, PartOf env u t → u ∈ G) (hr : GroupsRead env G) {u : Ty} (hu : u ∈ G) {ts : List TT} {v : Val} {rest : List TT} {left : Option Span}
    (hv : Visible ts) (hm : Matches env u ts v rest left) : ∃ a a', ts = a ++ rest ∧ a = a' ∧ Reads false v a' := by
  obtain ⟨a, a', h1, h2, _, h4, _⟩ := matches_part hm hv
  exact ⟨a, a', h1, (h4 (matches_none closed hr hm hu)).symm, readsL_single.mp h2⟩

end

end Parsel
