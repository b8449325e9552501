import Verif.Spec.Evolve
import Verif.Spec.Predict
import Verif.Proofs.Survive

/-! Extensions of a grammar. -/

namespace Parsel
open Spec
variable [Ext]

/-! ### what is kept -/

/-- The two print the same, and stand for the same tokens. -/
structure Kept (v w : Val) : Prop where
  tokens : w.toTokens = v.toTokens
  reads : ∀ b ts, Reads b w ts ↔ Reads b v ts
  survives : Survives w ↔ Survives v

/-- The same for lists. -/
structure KeptL (vs ws : List Val) : Prop where
  tokens : Val.toTokensL ws = Val.toTokensL vs
  reads : ∀ b ts, ReadsL b ws ts ↔ ReadsL b vs ts
  survives : SurvivesL ws ↔ SurvivesL vs

theorem kept_refl (v : Val) : Kept v v := ⟨rfl, fun _ _ => .rfl, .rfl⟩

theorem keptL_nil : KeptL [] [] := ⟨rfl, fun _ _ => .rfl, .rfl⟩

theorem keptL_cons {v w : Val} {vs ws : List Val} (h : Kept v w) (hl : KeptL vs ws) : KeptL (v :: vs) (w :: ws) where
  tokens := by rw [Val.toTokensL, Val.toTokensL, h.tokens, hl.tokens]
  reads := fun b ts => by simp only [ReadsL, h.reads, hl.reads]
  survives := by simp only [SurvivesL, h.survives, hl.survives]

theorem kept_one {v w : Val} {tag : Tag} (h : Kept v w) (ht : tag ≠ .punctuated) : Kept v (.node tag [w]) where
  tokens := by rw [← h.tokens]; simp [Val.toTokens, Val.toTokensL]
  reads := fun b ts => by
    rw [← h.reads]
    simp only [Reads, ReadsL]
    constructor
    · rintro ⟨a, b, i, j, rfl, h, ⟨rfl, rfl⟩, rfl⟩
      simpa using h
    · exact fun h => ⟨ts, [], b, false, by simp, h, ⟨rfl, rfl⟩, by simp⟩
  survives := by rw [← h.survives]; simp [Survives, SurvivesL, ht]

theorem keptL_first {w : Val} {vs ws : List Val} (h1 : w.toTokens = some []) (h2 : ∀ b ts, Reads b w ts ↔ b = false ∧ ts = []) (h3 : Survives w) (hl : KeptL vs ws) :
    KeptL vs (w :: ws) where
  tokens := by rw [Val.toTokensL, h1, hl.tokens]; simp
  reads := fun b ts => by
    rw [← hl.reads]
    simp only [ReadsL, h2]
    constructor
    · rintro ⟨a, b, i, j, rfl, ⟨rfl, rfl⟩, h, rfl⟩
      simpa using h
    · exact fun h => ⟨[], ts, false, b, by simp, ⟨rfl, rfl⟩, h, by simp⟩
  survives := by simp only [SurvivesL, h3, true_and, hl.survives]

theorem keptL_pair {v v' w w' : Val} {vs ws : List Val} (h1 : Kept v v') (h2 : Kept w w') (hl : KeptL vs ws) : KeptL (v :: w :: vs) (.node .maybe [v', w'] :: ws) where
  tokens := by
    simp only [Val.toTokensL, Val.toTokens, h1.tokens, h2.tokens, hl.tokens]
    cases v.toTokens <;> cases w.toTokens <;> cases Val.toTokensL vs <;> simp
  reads := fun b ts => by
    simp only [ReadsL, Reads, h1.reads, h2.reads, hl.reads]
    constructor
    · rintro ⟨_, c, _, j, rfl, ⟨a, _, i, _, rfl, h1, ⟨a', _, i', _, rfl, h2, ⟨rfl, rfl⟩, rfl⟩, rfl⟩, h3, rfl⟩
      exact ⟨a, a' ++ c, i, i' || j, by simp, h1, ⟨a', c, i', j, rfl, h2, h3, rfl⟩, by simp [Bool.or_assoc]⟩
    · rintro ⟨a, _, i, _, rfl, h1, ⟨a', c, i', j, rfl, h2, h3, rfl⟩, rfl⟩
      exact ⟨a ++ a', c, i || i', j, by simp, ⟨a, a', i, i', rfl, h1, ⟨a', [], i', false, by simp, h2, ⟨rfl, rfl⟩, by simp⟩, rfl⟩, h3, by simp [Bool.or_assoc]⟩
  survives := by simp [SurvivesL, Survives, h1.survives, h2.survives, hl.survives, and_assoc]

theorem kept_node {tag tag' : Tag} {vs ws : List Val} (h : tag ≠ .punctuated) (h' : tag' ≠ .punctuated) (hl : KeptL vs ws) : Kept (.node tag vs) (.node tag' ws) where
  tokens := hl.tokens
  reads := hl.reads
  survives := by simp [Survives, h, h', hl.survives]

theorem kept_group {d : Delim} {sp : Span} {v w : Val} (h : Kept v w) : Kept (.group d sp v) (.group d sp w) where
  tokens := by rw [Val.toTokens, Val.toTokens, h.tokens]
  reads := fun b ts => by simp only [Reads, h.reads]
  survives := by simp only [Survives, h.survives]

theorem kept_leaf {l m : Leaf} (h : LeafWider l m) {c : LeafVal} (hc : LeafTy l c) : Kept (.leaf l c) (.leaf m c) := by
  cases h with
  | same => exact ⟨rfl, fun _ _ => .rfl, .rfl⟩
  | words h =>
    refine ⟨?_, fun b ts => ?_, .rfl⟩
    · cases hc <;> rfl
    · simp only [Reads]
      constructor
      · rintro ⟨rfl, h⟩
        refine ⟨rfl, ?_⟩
        cases h with
        | unit h => simp at h
        | ident _ => exact .ident (.inl ⟨_, rfl⟩)
      · rintro ⟨rfl, h⟩
        refine ⟨rfl, ?_⟩
        cases h with
        | unit h => simp at h
        | ident _ => exact .ident (.inl ⟨_, rfl⟩)
  | anyWord h =>
    refine ⟨?_, fun b ts => ?_, .rfl⟩
    · cases hc <;> rfl
    · simp only [Reads]
      constructor
      · rintro ⟨rfl, h⟩
        refine ⟨rfl, ?_⟩
        cases h with
        | unit h => simp at h
        | ident _ => exact .ident (.inr rfl)
      · rintro ⟨rfl, h⟩
        refine ⟨rfl, ?_⟩
        cases h with
        | unit h => simp at h
        | ident _ => exact .ident (.inl ⟨_, rfl⟩)

theorem missed {env : Env} {u : Ty} {w : Val} (h : CanMiss u) (hw : Missed u w) : HasTy env u w ∧ w.toTokens = some [] ∧ (∀ b ts, Reads b w ts ↔ b = false ∧ ts = []) ∧ Survives w := by
  cases h with
  | empty =>
    cases hw
    refine ⟨.leaf .empty, rfl, fun b ts => ?_, trivial⟩
    simp only [Reads]
    constructor
    · rintro ⟨rfl, h⟩
      cases h
      exact ⟨rfl, rfl⟩
    · rintro ⟨rfl, rfl⟩
      exact ⟨rfl, .unit (.inl rfl)⟩
  | maybe => cases hw; exact ⟨.absent, rfl, fun b ts => by simp [Reads, ReadsL, and_comm], by simp [Survives, SurvivesL]⟩
  | any => cases hw; exact ⟨.any (n := 0) .nil, rfl, fun b ts => by simp [Reads, ReadsL, and_comm], by simp [Survives, SurvivesL]⟩
  | punctuated => cases hw; exact ⟨.punctuated (n := 0) .nil, rfl, fun b ts => by simp [Reads, ReadsL, and_comm], by simp [Survives, SurvivesL]⟩

/-- The last of the items. -/
def LastKept (vs ws : List Val) : Prop := ∀ w, ws.getLast? = some w → ∃ v, vs.getLast? = some v ∧ w.toTokens = v.toTokens

theorem kept_punctuated {vs ws : List Val} (hl : KeptL vs ws) (h1 : LastKept vs ws) (h2 : LastKept ws vs) : Kept (.node .punctuated vs) (.node .punctuated ws) where
  tokens := hl.tokens
  reads := hl.reads
  survives := by
    simp only [Survives, hl.survives, true_implies]
    constructor
    · rintro ⟨h, hs⟩
      refine ⟨fun v hv => ?_, hs⟩
      obtain ⟨w, hw, e⟩ := h2 v hv
      rw [e]
      exact h w hw
    · rintro ⟨h, hs⟩
      refine ⟨fun v hv => ?_, hs⟩
      obtain ⟨w, hw, e⟩ := h1 v hv
      rw [e]
      exact h w hw

theorem lastKept_cons {v w : Val} {vs ws : List Val} (h : w.toTokens = v.toTokens) (hl : LastKept vs ws) (hn : ws = [] → vs = []) : LastKept (v :: vs) (w :: ws) := by
  intro x hx
  cases ws with
  | nil => cases hx; rw [hn rfl]; exact ⟨v, rfl, h⟩
  | cons y ws =>
    rw [List.getLast?_cons_cons] at hx
    obtain ⟨z, hz, e⟩ := hl x hx
    cases vs with
    | nil => cases hz
    | cons _ _ => exact ⟨z, by rw [List.getLast?_cons_cons]; exact hz, e⟩

mutual

theorem upgrade_kept {env env' : Env} : ∀ {t u : Ty} {v w : Val}, Upgrade env env' t u v w → Kept v w
  | _, _, _, _, .leaf h hc => kept_leaf h hc
  | _, _, _, _, .named _ _ h => kept_node (by simp) (by simp) (upgrades_kept h)
  | _, _, _, _, .absent => kept_node (by simp) (by simp) keptL_nil
  | _, _, _, _, .maybe h1 h2 => kept_node (by simp) (by simp) (keptL_cons (upgrade_kept h1) (keptL_cons (upgrade_kept h2) keptL_nil))
  | _, _, _, _, .paren h => kept_group (upgrade_kept h)
  | _, _, _, _, .bracket h => kept_group (upgrade_kept h)
  | _, _, _, _, .brace h => kept_group (upgrade_kept h)
  | _, _, _, _, .punctuated h => kept_punctuated (each_kept h).1 (each_kept h).2.1 (each_kept h).2.2.1
  | _, _, _, _, .separated h => kept_node (by simp) (by simp) (each_kept h).1
  | _, _, _, _, .any h => kept_node (by simp) (by simp) (each_kept h).1
  | _, _, _, _, .leftRhs h => kept_node (by simp) (by simp) (keptL_cons (upgrade_kept h) keptL_nil)
  | _, _, _, _, .leftBin h1 h2 h3 => kept_node (by simp) (by simp) (keptL_cons (upgrade_kept h1) (keptL_cons (upgrade_kept h2) (keptL_cons (upgrade_kept h3) keptL_nil)))
  | _, _, _, _, .rightLhs h => kept_node (by simp) (by simp) (keptL_cons (upgrade_kept h) keptL_nil)
  | _, _, _, _, .rightBin h1 h2 h3 => kept_node (by simp) (by simp) (keptL_cons (upgrade_kept h1) (keptL_cons (upgrade_kept h2) (keptL_cons (upgrade_kept h3) keptL_nil)))
  | _, _, _, _, .left h => kept_node (by simp) (by simp) (keptL_cons (upgrade_kept h) keptL_nil)
  | _, _, _, _, .right h => kept_node (by simp) (by simp) (keptL_cons (upgrade_kept h) keptL_nil)
  | _, _, _, _, .unboxed h => upgrade_kept h
  | _, _, _, _, .boxed h => upgrade_kept h
  | _, _, _, _, .orLeft h => kept_one (upgrade_kept h) (by simp)
  | _, _, _, _, .orRight h => kept_one (upgrade_kept h) (by simp)
  | _, _, _, _, .orVariant _ h => kept_one (upgrade_kept h) (by simp)
  | _, _, _, _, .operandLeft h => kept_one (upgrade_kept h) (by simp)
  | _, _, _, _, .operandRight h => kept_one (upgrade_kept h) (by simp)
  | _, _, _, _, .first h => kept_one (upgrade_kept h) (by simp)
  | _, _, _, _, .repeated h => kept_one (upgrade_kept h) (by simp)
  | _, _, v, _, .present h => by
    have k := upgrade_kept h
    have m := missed (env := env) .empty (show Missed (.leaf .empty) (.leaf .empty .unit) from rfl)
    have l := kept_node (tag := .maybe) (tag' := .maybe) (by simp) (by simp) (keptL_cons k (keptL_first m.2.1 m.2.2.1 m.2.2.2 keptL_nil))
    have o := kept_one (tag := .maybe) (kept_refl v) (by simp)
    exact ⟨l.tokens.trans o.tokens, fun b ts => (l.reads b ts).trans (o.reads b ts), l.survives.trans o.survives⟩

theorem each_kept {env env' : Env} : ∀ {ts us : List Ty} {vs ws : List Val}, UpgradeEach env env' ts us vs ws → KeptL vs ws ∧ LastKept vs ws ∧ LastKept ws vs ∧ (ws = [] ↔ vs = [])
  | _, _, _, _, .nil => ⟨keptL_nil, (fun _ h => by cases h), (fun _ h => by cases h), .rfl⟩
  | _, _, _, _, .cons h hs => by
    obtain ⟨h1, h2, h3, h4⟩ := each_kept hs
    have k := upgrade_kept h
    exact ⟨keptL_cons k h1, lastKept_cons k.tokens h2 h4.mp, lastKept_cons k.tokens.symm h3 h4.mpr, by simp⟩

theorem upgrades_kept {env env' : Env} : ∀ {ts us : List Ty} {vs ws : List Val}, Upgrades env env' ts us vs ws → KeptL vs ws
  | _, _, _, _, .nil => keptL_nil
  | _, _, _, _, .cons h hs => keptL_cons (upgrade_kept h) (upgrades_kept hs)
  | _, _, _, _, .optional h1 h2 hs => keptL_pair (upgrade_kept h1) (upgrade_kept h2) (upgrades_kept hs)
  | _, _, _, _, .extra hu hw hs => keptL_first (missed (env := env) hu hw).2.1 (missed (env := env) hu hw).2.2.1 (missed (env := env) hu hw).2.2.2 (upgrades_kept hs)

end

/-! ### types -/

theorem case_hasTy {env : Env} {x c : Text} {ts : List Ty} {vs : List Val} (h : Case env x c ts) (hs : HasTys env ts vs) : HasTy env (.named x) (.node (.ctor x c) vs) := by
  cases h with
  | struct h => exact .struct h hs
  | variant h hw => exact .enum h hw hs

theorem leaf_wider {l m : Leaf} (h : LeafWider l m) {c : LeafVal} (hc : LeafTy l c) : LeafTy m c := by
  cases h with
  | same => exact hc
  | words h => cases hc with
    | customIdent hx => exact .customIdent fun hk => hx (h _ hk)
  | anyWord h => cases hc with
    | rustIdent hx => exact .customIdent fun hk => hx (h _ hk)

mutual

theorem upgrade_hasTy {env env' : Env} : ∀ {t u : Ty} {v w : Val}, Upgrade env env' t u v w → HasTy env t v ∧ HasTy env' u w
  | _, _, _, _, .leaf h hc => ⟨.leaf hc, .leaf (leaf_wider h hc)⟩
  | _, _, _, _, .named h h' hs => ⟨case_hasTy h (upgrades_hasTys hs).1, case_hasTy h' (upgrades_hasTys hs).2⟩
  | _, _, _, _, .absent => ⟨.absent, .absent⟩
  | _, _, _, _, .maybe h1 h2 => ⟨.present (upgrade_hasTy h1).1 (upgrade_hasTy h2).1, .present (upgrade_hasTy h1).2 (upgrade_hasTy h2).2⟩
  | _, _, _, _, .paren h => ⟨.paren (upgrade_hasTy h).1, .paren (upgrade_hasTy h).2⟩
  | _, _, _, _, .bracket h => ⟨.bracket (upgrade_hasTy h).1, .bracket (upgrade_hasTy h).2⟩
  | _, _, _, _, .brace h => ⟨.brace (upgrade_hasTy h).1, .brace (upgrade_hasTy h).2⟩
  | _, _, _, _, .punctuated h => ⟨.punctuated (each_hasTys h).1, .punctuated (each_hasTys h).2⟩
  | _, _, _, _, .separated h => ⟨.separated (each_hasTys h).1, .separated (each_hasTys h).2⟩
  | _, _, _, _, .any h => ⟨.any (each_hasTys h).1, .any (each_hasTys h).2⟩
  | _, _, _, _, .leftRhs h => ⟨.leftRhs (upgrade_hasTy h).1, .leftRhs (upgrade_hasTy h).2⟩
  | _, _, _, _, .leftBin h1 h2 h3 => ⟨.leftBin (upgrade_hasTy h1).1 (upgrade_hasTy h2).1 (upgrade_hasTy h3).1, .leftBin (upgrade_hasTy h1).2 (upgrade_hasTy h2).2 (upgrade_hasTy h3).2⟩
  | _, _, _, _, .rightLhs h => ⟨.rightLhs (upgrade_hasTy h).1, .rightLhs (upgrade_hasTy h).2⟩
  | _, _, _, _, .rightBin h1 h2 h3 => ⟨.rightBin (upgrade_hasTy h1).1 (upgrade_hasTy h2).1 (upgrade_hasTy h3).1, .rightBin (upgrade_hasTy h1).2 (upgrade_hasTy h2).2 (upgrade_hasTy h3).2⟩
  | _, _, _, _, .left h => ⟨.left (upgrade_hasTy h).1, .left (upgrade_hasTy h).2⟩
  | _, _, _, _, .right h => ⟨.right (upgrade_hasTy h).1, .right (upgrade_hasTy h).2⟩
  | _, _, _, _, .unboxed h => ⟨.boxed (upgrade_hasTy h).1, (upgrade_hasTy h).2⟩
  | _, _, _, _, .boxed h => ⟨(upgrade_hasTy h).1, .boxed (upgrade_hasTy h).2⟩
  | _, _, _, _, .orLeft h => ⟨(upgrade_hasTy h).1, .left (upgrade_hasTy h).2⟩
  | _, _, _, _, .orRight h => ⟨(upgrade_hasTy h).1, .right (upgrade_hasTy h).2⟩
  | _, _, _, _, .orVariant hc h => ⟨(upgrade_hasTy h).1, case_hasTy hc (.cons (upgrade_hasTy h).2 .nil)⟩
  | _, _, _, _, .operandLeft h => ⟨(upgrade_hasTy h).1, .leftRhs (upgrade_hasTy h).2⟩
  | _, _, _, _, .operandRight h => ⟨(upgrade_hasTy h).1, .rightLhs (upgrade_hasTy h).2⟩
  | _, _, _, _, .first h => ⟨(upgrade_hasTy h).1, .separated (n := 0) (.cons (upgrade_hasTy h).2 .nil)⟩
  | _, _, _, _, .repeated h => ⟨(upgrade_hasTy h).1, .any (n := 1) (.cons (upgrade_hasTy h).2 .nil)⟩
  | _, _, _, _, .present h => ⟨(upgrade_hasTy h).1, .present (upgrade_hasTy h).2 (.leaf .empty)⟩

theorem each_hasTys {env env' : Env} : ∀ {ts us : List Ty} {vs ws : List Val}, UpgradeEach env env' ts us vs ws → HasTys env ts vs ∧ HasTys env' us ws
  | _, _, _, _, .nil => ⟨.nil, .nil⟩
  | _, _, _, _, .cons h hs => ⟨.cons (upgrade_hasTy h).1 (each_hasTys hs).1, .cons (upgrade_hasTy h).2 (each_hasTys hs).2⟩

theorem upgrades_hasTys {env env' : Env} : ∀ {ts us : List Ty} {vs ws : List Val}, Upgrades env env' ts us vs ws → HasTys env ts vs ∧ HasTys env' us ws
  | _, _, _, _, .nil => ⟨.nil, .nil⟩
  | _, _, _, _, .cons h hs => ⟨.cons (upgrade_hasTy h).1 (upgrades_hasTys hs).1, .cons (upgrade_hasTy h).2 (upgrades_hasTys hs).2⟩
  | _, _, _, _, .optional h1 h2 hs =>
    ⟨.cons (upgrade_hasTy h1).1 (.cons (upgrade_hasTy h2).1 (upgrades_hasTys hs).1), .cons (.present (upgrade_hasTy h1).2 (upgrade_hasTy h2).2) (upgrades_hasTys hs).2⟩
  | _, _, _, _, .extra hu hw hs => ⟨(upgrades_hasTys hs).1, .cons (missed hu hw).1 (upgrades_hasTys hs).2⟩

end

/-! ### every node can be upgraded -/

theorem missed_exists {u : Ty} (h : CanMiss u) : ∃ w, Missed u w := by
  cases h with
  | empty => exact ⟨.leaf .empty .unit, rfl⟩
  | maybe => exact ⟨.node .maybe [], rfl⟩
  | any => exact ⟨.node .any [], rfl⟩
  | punctuated => exact ⟨.node .punctuated [], rfl⟩

/-- The claim for a value. -/
def Ups (env env' : Env) (v : Val) : Prop := ∀ {t u}, Wider env' t u → HasTy env t v → ∃ w, Upgrade env env' t u v w

theorem ups_fields {env env' : Env} : ∀ {ts us : List Ty} {vs : List Val}, (∀ v ∈ vs, Ups env env' v) → WiderSeq env' ts us → HasTys env ts vs → ∃ ws, Upgrades env env' ts us vs ws := by
  intro ts us vs hv h
  induction h generalizing vs with
  | nil => intro hs; cases hs; exact ⟨[], .nil⟩
  | cons h _ ih =>
    intro hs
    cases hs with
    | cons h1 hs =>
      obtain ⟨w, hw⟩ := hv _ (List.mem_cons_self ..) h h1
      obtain ⟨ws, hws⟩ := ih (fun v hm => hv v (List.mem_cons_of_mem _ hm)) hs
      exact ⟨_, .cons hw hws⟩
  | optional h h' _ ih =>
    intro hs
    cases hs with
    | cons h1 hs =>
      cases hs with
      | cons h2 hs =>
        obtain ⟨w, hw⟩ := hv _ (List.mem_cons_self ..) h h1
        obtain ⟨w', hw'⟩ := hv _ (by simp) h' h2
        obtain ⟨ws, hws⟩ := ih (fun v hm => hv v (by simp [hm])) hs
        exact ⟨_, .optional hw hw' hws⟩
  | extra hu _ ih =>
    intro hs
    obtain ⟨w, hw⟩ := missed_exists hu
    obtain ⟨ws, hws⟩ := ih hv hs
    exact ⟨_, .extra hu hw hws⟩

theorem ups_items {env env' : Env} : ∀ {n : Nat} {t p t' p' : Ty} {vs : List Val}, (∀ v ∈ vs, Ups env env' v) → Wider env' t t' → Wider env' p p' → HasTys env (alternate t p n) vs →
    ∃ ws, UpgradeEach env env' (alternate t p n) (alternate t' p' n) vs ws
  | 0, _, _, _, _, _, _, _, _, hs => by cases hs; exact ⟨[], .nil⟩
  | n + 1, _, _, _, _, _, hv, h1, h2, hs => by
    cases hs with
    | cons h hs =>
      obtain ⟨w, hw⟩ := hv _ (List.mem_cons_self ..) h1 h
      obtain ⟨ws, hws⟩ := ups_items (fun v hm => hv v (List.mem_cons_of_mem _ hm)) h2 h1 hs
      exact ⟨_, .cons hw hws⟩

theorem ups_rounds {env env' : Env} : ∀ {n : Nat} {t t' : Ty} {vs : List Val}, (∀ v ∈ vs, Ups env env' v) → Wider env' t t' → HasTys env (List.replicate n t) vs →
    ∃ ws, UpgradeEach env env' (List.replicate n t) (List.replicate n t') vs ws
  | 0, _, _, _, _, _, hs => by cases hs; exact ⟨[], .nil⟩
  | n + 1, _, _, _, hv, h1, hs => by
    cases hs with
    | cons h hs =>
      obtain ⟨w, hw⟩ := hv _ (List.mem_cons_self ..) h1 h
      obtain ⟨ws, hws⟩ := ups_rounds (fun v hm => hv v (List.mem_cons_of_mem _ hm)) h1 hs
      exact ⟨_, .cons hw hws⟩

theorem upgrade_exists {env env' : Env} (he : Extends env env') : ∀ (n : Nat) (v : Val), sizeOf v < n → Ups env env' v
  | 0, _, hn => by omega
  | n + 1, v, hn => by
    intro hw
    have sub : ∀ {tag : Tag} {vs : List Val}, v = .node tag vs → ∀ x ∈ vs, Ups env env' x := by
      rintro tag vs rfl x hx
      refine upgrade_exists he n x ?_
      have := List.sizeOf_lt_of_mem hx
      simp only [Val.node.sizeOf_spec] at hn
      omega
    have subg : ∀ {d : Delim} {sp : Span} {x : Val}, v = .group d sp x → Ups env env' x := by
      rintro d sp x rfl
      refine upgrade_exists he n x ?_
      simp only [Val.group.sizeOf_spec] at hn
      omega
    induction hw with
    | leaf h =>
      intro hv
      cases hv with
      | leaf hc => exact ⟨_, .leaf h hc⟩
    | named =>
      intro hv
      cases hv with
      | struct h hs =>
        obtain ⟨c', us, hc, hu⟩ := he _ _ _ (.struct h)
        obtain ⟨ws, hws⟩ := ups_fields (sub rfl) hu hs
        exact ⟨_, .named (.struct h) hc hws⟩
      | enum h hm hs =>
        obtain ⟨c', us, hc, hu⟩ := he _ _ _ (.variant h hm)
        obtain ⟨ws, hws⟩ := ups_fields (sub rfl) hu hs
        exact ⟨_, .named (.variant h hm) hc hws⟩
    | maybe h1 h2 =>
      intro hv
      cases hv with
      | absent => exact ⟨_, .absent⟩
      | present hp ht =>
        obtain ⟨_, a⟩ := sub rfl _ (by simp) h1 hp
        obtain ⟨_, b⟩ := sub rfl _ (by simp) h2 ht
        exact ⟨_, .maybe a b⟩
    | paren h =>
      intro hv
      cases hv with
      | paren hv => obtain ⟨_, a⟩ := subg rfl h hv; exact ⟨_, .paren a⟩
    | bracket h =>
      intro hv
      cases hv with
      | bracket hv => obtain ⟨_, a⟩ := subg rfl h hv; exact ⟨_, .bracket a⟩
    | brace h =>
      intro hv
      cases hv with
      | brace hv => obtain ⟨_, a⟩ := subg rfl h hv; exact ⟨_, .brace a⟩
    | punctuated h1 h2 =>
      intro hv
      cases hv with
      | punctuated hs => obtain ⟨_, a⟩ := ups_items (sub rfl) h1 h2 hs; exact ⟨_, .punctuated a⟩
    | separated h1 h2 =>
      intro hv
      cases hv with
      | separated hs => obtain ⟨_, a⟩ := ups_items (sub rfl) h1 h2 hs; exact ⟨_, .separated a⟩
    | any h =>
      intro hv
      cases hv with
      | any hs => obtain ⟨_, a⟩ := ups_rounds (sub rfl) h hs; exact ⟨_, .any a⟩
    | leftAssoc h1 h2 =>
      intro hv
      cases hv with
      | leftRhs hv => obtain ⟨_, a⟩ := sub rfl _ (by simp) h2 hv; exact ⟨_, .leftRhs a⟩
      | leftBin hl ho hr =>
        obtain ⟨_, a⟩ := sub rfl _ (by simp) (.leftAssoc h1 h2) hl
        obtain ⟨_, b⟩ := sub rfl _ (by simp) h1 ho
        obtain ⟨_, c⟩ := sub rfl _ (by simp) h2 hr
        exact ⟨_, .leftBin a b c⟩
    | rightAssoc h1 h2 =>
      intro hv
      cases hv with
      | rightLhs hv => obtain ⟨_, a⟩ := sub rfl _ (by simp) h2 hv; exact ⟨_, .rightLhs a⟩
      | rightBin hl ho hr =>
        obtain ⟨_, a⟩ := sub rfl _ (by simp) h2 hl
        obtain ⟨_, b⟩ := sub rfl _ (by simp) h1 ho
        obtain ⟨_, c⟩ := sub rfl _ (by simp) (.rightAssoc h1 h2) hr
        exact ⟨_, .rightBin a b c⟩
    | either h1 h2 =>
      intro hv
      cases hv with
      | left hv => obtain ⟨_, a⟩ := sub rfl _ (by simp) h1 hv; exact ⟨_, .left a⟩
      | right hv => obtain ⟨_, a⟩ := sub rfl _ (by simp) h2 hv; exact ⟨_, .right a⟩
    | unboxed _ ih =>
      intro hv
      cases hv with
      | boxed hv => obtain ⟨_, a⟩ := ih hv; exact ⟨_, .unboxed a⟩
    | boxed _ ih => exact fun hv => let ⟨_, a⟩ := ih hv; ⟨_, .boxed a⟩
    | orLeft _ ih => exact fun hv => let ⟨_, a⟩ := ih hv; ⟨_, .orLeft a⟩
    | orRight _ ih => exact fun hv => let ⟨_, a⟩ := ih hv; ⟨_, .orRight a⟩
    | orVariant hc _ ih => exact fun hv => let ⟨_, a⟩ := ih hv; ⟨_, .orVariant hc a⟩
    | operandLeft _ ih => exact fun hv => let ⟨_, a⟩ := ih hv; ⟨_, .operandLeft a⟩
    | operandRight _ ih => exact fun hv => let ⟨_, a⟩ := ih hv; ⟨_, .operandRight a⟩
    | first _ ih => exact fun hv => let ⟨_, a⟩ := ih hv; ⟨_, .first a⟩
    | repeated _ ih => exact fun hv => let ⟨_, a⟩ := ih hv; ⟨_, .repeated a⟩
    | present _ ih => exact fun hv => let ⟨_, a⟩ := ih hv; ⟨_, .present a⟩

end Parsel
