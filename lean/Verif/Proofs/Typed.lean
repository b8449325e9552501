import Verif.Proofs.Origin
import Verif.Props.Literal

/-! Successfully parsed values have the type they were parsed as. -/

namespace Parsel
open Spec
variable [Ext]

/-! ### leaves -/

theorem litKind_typed {k : LitKind} {s s' : PState} {v : LitVal} {sp : Span} (h : litKindParse k s = .ok (v, sp) s') :
    LeafTy (.lit k) (.lit v sp) := by
  cases k with
  | bool =>
    obtain ⟨⟨b, sp'⟩, h1, h2⟩ := Res.map_ok.mp h
    simp only [Prod.mk.injEq] at h2; obtain ⟨rfl, rfl⟩ := h2; exact .bool
  | byte =>
    obtain ⟨⟨b, sp'⟩, h1, h2⟩ := Res.map_ok.mp h
    simp only [Prod.mk.injEq] at h2; obtain ⟨rfl, rfl⟩ := h2; exact .byte
  | int =>
    obtain ⟨⟨b, sp'⟩, h1, h2⟩ := Res.map_ok.mp h
    simp only [Prod.mk.injEq] at h2; obtain ⟨rfl, rfl⟩ := h2
    obtain ⟨_, _, _, _, _, h3, _⟩ := (C34_int _ _ _ _).mp h1
    exact .int h3
  | uint =>
    obtain ⟨⟨b, sp'⟩, h1, h2⟩ := Res.map_ok.mp h
    simp only [Prod.mk.injEq] at h2; obtain ⟨rfl, rfl⟩ := h2
    obtain ⟨_, _, h3, _⟩ := (C34_uint _ _ _ _).mp h1
    exact .uint h3
  | float =>
    obtain ⟨⟨b, sp'⟩, h1, h2⟩ := Res.map_ok.mp h
    simp only [Prod.mk.injEq] at h2; obtain ⟨rfl, rfl⟩ := h2; exact .float
  | char =>
    obtain ⟨⟨b, sp'⟩, h1, h2⟩ := Res.map_ok.mp h
    simp only [Prod.mk.injEq] at h2; obtain ⟨rfl, rfl⟩ := h2; exact .char
  | str =>
    obtain ⟨⟨b, sp'⟩, h1, h2⟩ := Res.map_ok.mp h
    simp only [Prod.mk.injEq] at h2; obtain ⟨rfl, rfl⟩ := h2; exact .str
  | byteStr =>
    obtain ⟨⟨b, sp'⟩, h1, h2⟩ := Res.map_ok.mp h
    simp only [Prod.mk.injEq] at h2; obtain ⟨rfl, rfl⟩ := h2; exact .byteStr
  | any =>
    have h : litParse s = .ok (v, sp) s' := h
    cases v with
    | int v =>
      obtain ⟨h1, m, rest', hI⟩ := (C35_int _ _ _ _).mp h
      obtain ⟨neg, n, rest, hI2, rfl, hv, _⟩ := (C34_int _ _ _ _).mp h1
      refine .any hv ?_
      intro w hw
      simp only [LitVal.int.injEq] at hw
      subst hw
      cases neg with
      | true => simp only [signed]; simp
      | false =>
        obtain ⟨msg, this⟩ := C34_uint_overflow s true m sp rest' hI (.inl rfl)
        by_cases hu : InU64 n
        · rw [(C34_uint s _ n sp).mpr ⟨rest, hI2, hu, rfl⟩] at this; cases this
        · unfold InI64 signed at hv; unfold InU64 at hu; simp at hv; omega
    | uint v =>
      obtain ⟨_, _, h3, _⟩ := (C34_uint _ _ _ _).mp ((C35_uint _ _ _ _).mp h)
      exact .any h3 (by intro w hw; cases hw)
    | bool => exact .any trivial (by intro w hw; cases hw)
    | byte => exact .any trivial (by intro w hw; cases hw)
    | float => exact .any trivial (by intro w hw; cases hw)
    | char => exact .any trivial (by intro w hw; cases hw)
    | str => exact .any trivial (by intro w hw; cases hw)
    | byteStr => exact .any trivial (by intro w hw; cases hw)

omit [Ext] in
theorem punctLoop_length : ∀ (tok : Text) (cur : List TT) (sps : List Span) (rest : List TT), punctLoop tok cur = some (sps, rest) →
    sps.length = tok.length
  | [], cur, sps, rest, h => by simp only [punctLoop, Option.some.injEq, Prod.mk.injEq] at h; rw [← h.1]; rfl
  | [c], cur, sps, rest, h => by
    simp only [punctLoop] at h
    split at h
    · split at h
      · simp only [Option.some.injEq, Prod.mk.injEq] at h; rw [← h.1]; rfl
      · cases h
    · cases h
  | c :: c2 :: cs, cur, sps, rest, h => by
    simp only [punctLoop] at h
    split at h
    · split at h
      · split at h
        · rename_i sps' rest'' hr
          simp only [Option.some.injEq, Prod.mk.injEq] at h
          rw [← h.1, List.length_cons, punctLoop_length (c2 :: cs) _ sps' rest'' hr]; rfl
        · cases h
      · cases h
    · cases h

theorem leaf_typed {l : Leaf} {s s' : PState} {v : LeafVal} (h : leafParse l s = .ok v s') : LeafTy l v := by
  cases l with
  | empty => simp only [leafParse, emptyParse, Res.map_okc, Res.ok.injEq] at h; rw [← h.1]; exact .empty
  | eof => obtain ⟨_, _, rfl⟩ := Res.map_ok.mp h; exact .eof
  | notEof => obtain ⟨_, _, rfl⟩ := Res.map_ok.mp h; exact .notEof
  | customIdent kws =>
    obtain ⟨⟨x, sp⟩, h1, rfl⟩ := Res.map_ok.mp h
    unfold customIdentParse at h1
    obtain ⟨⟨y, sp'⟩, s1, h2, h3⟩ := Res.bind_ok.mp h1
    simp only [customIdentTryFrom] at h3
    by_cases hk : (kws.any fun kw => decide (y = kw)) = true
    · simp only [hk, if_true] at h3; cases h3
    · simp only [hk] at h3
      simp only [Bool.false_eq_true, if_false, Res.ok.injEq, Prod.mk.injEq] at h3
      obtain ⟨⟨rfl, rfl⟩, rfl⟩ := h3
      refine .customIdent fun hm => hk ?_
      rw [List.any_eq_true]; exact ⟨_, hm, by simp⟩
  | rustIdent =>
    obtain ⟨⟨x, sp⟩, h1, rfl⟩ := Res.map_ok.mp h
    unfold parseRustIdent at h1
    split at h1
    · rename_i y sp' rest hu
      by_cases hk : rustKeywords.contains y = true
      · rw [if_pos hk] at h1; cases h1
      · rw [if_neg hk] at h1
        simp only [Res.ok.injEq, Prod.mk.injEq] at h1
        obtain ⟨⟨rfl, rfl⟩, rfl⟩ := h1
        exact .rustIdent fun hm => hk (List.contains_iff_mem.mpr hm)
    · cases h1
  | keyword kw => obtain ⟨_, _, rfl⟩ := Res.map_ok.mp h; exact .keyword
  | kwToken kw => obtain ⟨_, _, rfl⟩ := Res.map_ok.mp h; exact .kwToken
  | punct tok =>
    obtain ⟨sps, h1, rfl⟩ := Res.map_ok.mp h
    unfold parsePunct at h1
    split at h1
    · rename_i sps' rest hl
      simp only [Res.ok.injEq] at h1
      obtain ⟨rfl, rfl⟩ := h1
      exact .punct (punctLoop_length _ _ _ _ hl)
    · cases h1
  | lit k => obtain ⟨⟨v, sp⟩, h1, rfl⟩ := Res.map_ok.mp h; exact litKind_typed h1

/-! ### expressions -/

/-- The lists of values that an expression can read, when `H` says which values types can have. -/
inductive EHas (H : Ty → Val → Prop) : E → List Val → Prop
  | ret : EHas H .ret []
  | leaf {l v} : LeafTy l v → EHas H (.leaf l) [.leaf l v]
  | ty {t v} : H t v → EHas H (.ty t) [v]
  | delim {d t sp v} : H t v → EHas H (.delim d t) [.group d sp v]
  | seq {a b vs ws} : EHas H a vs → EHas H b ws → EHas H (.seq a b) (vs ++ ws)
  | label {en c f a vs} : EHas H a vs → EHas H (.label en c f a) vs
  | attempt {a vs} : EHas H a vs → EHas H (.attempt a) vs
  | optNone {a b} : EHas H (.opt a b) []
  | optSome {a b vs ws} : EHas H a vs → EHas H b ws → EHas H (.opt a b) (vs ++ ws)
  | altL {a b vs} : EHas H a vs → EHas H (.alt a b) vs
  | altR {a b vs} : EHas H b vs → EHas H (.alt a b) vs
  | termNil {a b} : EHas H (.term a b) []
  | termOne {a b vs} : EHas H a vs → EHas H (.term a b) vs
  | termMore {a b vs ws r} : EHas H a vs → EHas H b ws → EHas H (.term a b) r → EHas H (.term a b) (vs ++ (ws ++ r))
  | starNil {a b} : EHas H (.star a b) []
  | starMore {a b vs ws r} : EHas H a vs → EHas H b ws → EHas H (.star a b) r → EHas H (.star a b) (vs ++ (ws ++ r))
  | build {bu a vs} : EHas H a vs → EHas H (.build bu a) [bu.apply vs]

theorem exec_has {P : Ty → Parser Val} {H : Ty → Val → Prop} (hP : ∀ t s v s', P t s = .ok v s' → H t v) (k : Nat) :
    ∀ (e : E) s vs s', exec P k e s = .ok vs s' → EHas H e vs := by
  intro e
  induction e with
  | ret => intro s vs s' h; simp only [exec, Res.ok.injEq] at h; obtain ⟨rfl, rfl⟩ := h; exact .ret
  | leaf l => intro s vs s' h; obtain ⟨v, h1, rfl⟩ := Res.map_ok.mp h; exact .leaf (leaf_typed h1)
  | ty t => intro s vs s' h; obtain ⟨v, h1, rfl⟩ := Res.map_ok.mp h; exact .ty (hP _ _ _ _ h1)
  | delim d t =>
    intro s vs s' h
    obtain ⟨⟨sp, v⟩, h1, rfl⟩ := Res.map_ok.mp h
    simp only [delimited] at h1
    split at h1
    · split at h1
      · obtain ⟨v1, s1, h2, h3⟩ := Res.bind_ok.mp h1
        simp only [Res.ok.injEq, Prod.mk.injEq] at h3
        obtain ⟨⟨rfl, rfl⟩, rfl⟩ := h3
        exact .delim (hP _ _ _ _ h2)
      · cases h1
    · cases h1
  | fail msg => intro s vs s' h; cases h
  | seq a b iha ihb =>
    intro s vs s' h
    obtain ⟨v1, s1, h1, h2⟩ := Res.bind_ok.mp h
    obtain ⟨v2, h3, rfl⟩ := Res.map_ok.mp h2
    exact .seq (iha _ _ _ h1) (ihb _ _ _ h3)
  | label en c f a iha => intro s vs s' h; exact .label (iha _ _ _ (Res.mapErr_ok.mp h))
  | attempt a iha =>
    intro s vs s' h
    simp only [exec] at h
    cases h1 : exec P k a s.fork with
    | ok v1 f => rw [h1] at h; simp only [Res.ok.injEq] at h; obtain ⟨rfl, rfl⟩ := h; exact .attempt (iha _ _ _ h1)
    | err e => rw [h1] at h; cases h
    | panic => rw [h1] at h; cases h
    | oof => rw [h1] at h; cases h
  | opt a b iha ihb =>
    intro s vs s' h
    simp only [exec] at h
    cases h1 : exec P k a s.fork with
    | ok v1 f =>
      rw [h1] at h
      obtain ⟨v2, h3, rfl⟩ := Res.map_ok.mp h
      exact .optSome (iha _ _ _ h1) (ihb _ _ _ h3)
    | err e => rw [h1] at h; simp only [Res.ok.injEq] at h; obtain ⟨rfl, rfl⟩ := h; exact .optNone
    | panic => rw [h1] at h; cases h
    | oof => rw [h1] at h; cases h
  | alt a b iha ihb =>
    intro s vs s' h
    simp only [exec] at h
    cases h1 : exec P k a s with
    | ok v1 f => rw [h1] at h; simp only [Res.ok.injEq] at h; obtain ⟨rfl, rfl⟩ := h; exact .altL (iha _ _ _ h1)
    | err e =>
      rw [h1] at h
      simp only [] at h
      cases h2 : exec P k b s.fork with
      | ok v1 f => rw [h2] at h; simp only [Res.ok.injEq] at h; obtain ⟨rfl, rfl⟩ := h; exact .altR (ihb _ _ _ h2)
      | err e => rw [h2] at h; cases h
      | panic => rw [h2] at h; cases h
      | oof => rw [h2] at h; cases h
    | panic => rw [h1] at h; cases h
    | oof => rw [h1] at h; cases h
  | term a b iha ihb =>
    have : ∀ j s vs s', termN (exec P k a) (exec P k b) j s = .ok vs s' → EHas H (.term a b) vs := by
      intro j
      induction j with
      | zero => intro s vs s' h; cases h
      | succ j ih =>
        intro s vs s' h
        simp only [termN] at h
        split at h
        · simp only [Res.ok.injEq] at h; obtain ⟨rfl, rfl⟩ := h; exact .termNil
        · obtain ⟨v1, s1, h1, h2⟩ := Res.bind_ok.mp h
          split at h2
          · simp only [Res.ok.injEq] at h2; obtain ⟨rfl, rfl⟩ := h2; exact .termOne (iha _ _ _ h1)
          · obtain ⟨v2, s2, h3, h4⟩ := Res.bind_ok.mp h2
            obtain ⟨r, h5, rfl⟩ := Res.map_ok.mp h4
            exact .termMore (iha _ _ _ h1) (ihb _ _ _ h3) (ih _ _ _ h5)
    exact this k
  | star a b iha ihb =>
    have : ∀ j s vs s', starN (exec P k a) (exec P k b) j s = .ok vs s' → EHas H (.star a b) vs := by
      intro j
      induction j with
      | zero => intro s vs s' h; cases h
      | succ j ih =>
        intro s vs s' h
        simp only [starN] at h
        cases h1 : exec P k a s.fork with
        | ok v1 f =>
          rw [h1] at h
          obtain ⟨v2, s2, h3, h4⟩ := Res.bind_ok.mp h
          obtain ⟨r, h5, rfl⟩ := Res.map_ok.mp h4
          exact .starMore (iha _ _ _ h1) (ihb _ _ _ h3) (ih _ _ _ h5)
        | err e => rw [h1] at h; simp only [Res.ok.injEq] at h; obtain ⟨rfl, rfl⟩ := h; exact .starNil
        | panic => rw [h1] at h; cases h
        | oof => rw [h1] at h; cases h
    exact this k
  | build bu a iha =>
    intro s vs s' h
    obtain ⟨v, h1, rfl⟩ := Res.map_ok.mp h
    exact .build (iha _ _ _ h1)

/-! ### types -/

variable {env : Env}

theorem EHas.ty_inv {H : Ty → Val → Prop} {t : Ty} {vs : List Val} (h : EHas H (.ty t) vs) : ∃ v, vs = [v] ∧ H t v := by
  cases h with | ty h => exact ⟨_, rfl, h⟩

theorem term_types {t p : Ty} {vs : List Val} (h : EHas (HasTy env) (.term (.ty t) (.ty p)) vs) : ∃ n, HasTys env (alternate t p n) vs := by
  generalize he : E.term (.ty t) (.ty p) = e at h
  induction h with
  | termNil => exact ⟨0, .nil⟩
  | termOne h1 _ =>
    cases he
    obtain ⟨v, rfl, hv⟩ := h1.ty_inv
    exact ⟨1, .cons hv .nil⟩
  | termMore h1 h2 _ _ _ ih =>
    cases he
    obtain ⟨v, rfl, hv⟩ := h1.ty_inv
    obtain ⟨w, rfl, hw⟩ := h2.ty_inv
    obtain ⟨n, hn⟩ := ih rfl
    exact ⟨n + 2, .cons hv (.cons hw hn)⟩
  | _ => cases he

theorem star_types {t p : Ty} {vs : List Val} (h : EHas (HasTy env) (.star (.ty p) (.ty t)) vs) :
    ∃ n, HasTys env (alternate p t (2 * n)) vs := by
  generalize he : E.star (.ty p) (.ty t) = e at h
  induction h with
  | starNil => exact ⟨0, .nil⟩
  | starMore h1 h2 _ _ _ ih =>
    cases he
    obtain ⟨v, rfl, hv⟩ := h1.ty_inv
    obtain ⟨w, rfl, hw⟩ := h2.ty_inv
    obtain ⟨n, hn⟩ := ih rfl
    exact ⟨n + 1, .cons hv (.cons hw hn)⟩
  | _ => cases he

theorem any_types {t : Ty} {vs : List Val} (h : EHas (HasTy env) (.star (.ty t) .ret) vs) : ∃ n, HasTys env (List.replicate n t) vs := by
  generalize he : E.star (.ty t) .ret = e at h
  induction h with
  | starNil => exact ⟨0, .nil⟩
  | starMore h1 h2 _ _ _ ih =>
    cases he
    obtain ⟨v, rfl, hv⟩ := h1.ty_inv
    cases h2
    obtain ⟨n, hn⟩ := ih rfl
    exact ⟨n + 1, .cons hv hn⟩
  | _ => cases he

theorem leftV_typed {o r : Ty} : ∀ (n : Nat) (acc : Val) (vs : List Val), HasTy env (.leftAssoc o r) acc → HasTys env (alternate o r (2 * n)) vs →
    HasTy env (.leftAssoc o r) (leftV acc vs)
  | 0, acc, vs, ha, h => by
    cases h with | nil => exact ha
  | n + 1, acc, vs, ha, h => by
    cases h with
    | cons h1 h2 => cases h2 with
      | cons h3 h4 => simp only [leftV]; exact leftV_typed n _ _ (.leftBin ha h1 h3) h4

theorem rightV_typed {o l : Ty} : ∀ (n : Nat) (v0 : Val) (vs : List Val), HasTy env l v0 → HasTys env (alternate o l (2 * n)) vs →
    HasTy env (.rightAssoc o l) (rightV v0 vs)
  | 0, v0, vs, ha, h => by
    cases h with | nil => exact .rightLhs ha
  | n + 1, v0, vs, ha, h => by
    cases h with
    | cons h1 h2 => cases h2 with
      | cons h3 h4 => exact .rightBin ha h1 (rightV_typed n _ _ h3 h4)

theorem sepSeq_types {t p : Ty} {vs : List Val} (h : EHas (HasTy env) (.seq (.ty t) (.star (.ty p) (.ty t))) vs) :
    ∃ v ws n, vs = v :: ws ∧ HasTy env t v ∧ HasTys env (alternate p t (2 * n)) ws := by
  cases h with
  | seq h1 h2 =>
    obtain ⟨v, rfl, hv⟩ := h1.ty_inv
    obtain ⟨n, hn⟩ := star_types h2
    exact ⟨v, _, n, rfl, hv, hn⟩

theorem inits_types : ∀ {is : List (FieldInit Ty)} {vs : List Val}, EHas (HasTy env) (initsE is) vs → HasTys env (is.map (·.ty)) vs
  | [], vs, h => by cases h with | ret => exact .nil
  | i :: is, vs, h => by
    cases h with
    | seq h1 h2 =>
      cases h1 with
      | label h1 =>
        obtain ⟨v, rfl, hv⟩ := h1.ty_inv
        exact .cons hv (inits_types h2)

theorem ctor_types {x : Text} {c : CtorCode Ty} {vs : List Val} (h : EHas (HasTy env) (ctorE x c) vs) :
    ∃ ws, vs = [.node (.ctor x c.ctor) ws] ∧ HasTys env (c.inits.map (·.ty)) ws := by
  cases h with | build h => exact ⟨_, rfl, inits_types h⟩

theorem alts_types {x : Text} : ∀ {cs : List (CtorCode Ty)} {e : E} {vs : List Val}, EHas (HasTy env) (altsE x e cs) vs →
    EHas (HasTy env) e vs ∨ ∃ c ∈ cs, EHas (HasTy env) (ctorE x c) vs
  | [], e, vs, h => .inl h
  | c :: cs, e, vs, h => by
    rcases alts_types (cs := cs) h with h | ⟨c', hc, h⟩
    · cases h with
      | altL h => exact .inl h
      | altR h => exact .inr ⟨c, by simp, h⟩
    · exact .inr ⟨c', by simp [hc], h⟩

theorem inits_ty_map (en : Option Text) (c : Text) (fs : Fields Ty) : (expandFields en c fs).inits.map (·.ty) = fieldTypes fs := by
  rw [expandFields_inits, List.map_map]
  have : ((fun i : FieldInit Ty => i.ty) ∘ fun p : Ty × Text => (⟨p.1, en.getD [], c, p.2⟩ : FieldInit Ty)) = Prod.fst := rfl
  rw [this, List.map_fst_zip]
  rw [fieldLabels_length]; exact Nat.le_refl _

theorem body_types {t : Ty} {v : Val} (h : EHas (HasTy env) (body env t) [v]) : HasTy env t v := by
  cases t with
  | leaf l => cases h with | leaf h => exact .leaf h
  | named x =>
    simp only [body] at h
    cases he : env x with
    | struct fields =>
      rw [code_struct he] at h
      obtain ⟨ws, h1, h2⟩ := ctor_types h
      rw [inits_ty_map] at h2
      rw [expandFields_ctor] at h1
      simp only [List.cons.injEq, and_true] at h1
      rw [h1]
      exact .struct he h2
    | enum vs =>
      rw [code_enum he] at h
      have hc : ∃ w ∈ vs, EHas (HasTy env) (ctorE x (expandFields (some x) w.ident w.fields)) [v] := by
        cases vs with
        | nil => cases h
        | cons w ws =>
          rcases alts_types (cs := ws.map fun w => expandFields (some x) w.ident w.fields) h with h | ⟨c, hc, h⟩
          · cases h with | attempt h => exact ⟨w, by simp, h⟩
          · obtain ⟨w', hw, rfl⟩ := List.mem_map.mp hc
            exact ⟨w', by simp [hw], h⟩
      obtain ⟨w, hw, h⟩ := hc
      obtain ⟨ws, h1, h2⟩ := ctor_types h
      rw [inits_ty_map] at h2
      rw [expandFields_ctor] at h1
      simp only [List.cons.injEq, and_true] at h1
      rw [h1]
      exact .enum he hw h2
  | boxed t => cases h with | ty h => exact .boxed h
  | maybe p t =>
    simp only [body] at h
    generalize hv : [v] = vs at h
    cases h with
    | build h =>
      cases hv
      cases h with
      | optNone => exact .absent
      | optSome h1 h2 =>
        obtain ⟨v, rfl, hv⟩ := h1.ty_inv
        obtain ⟨w, rfl, hw⟩ := h2.ty_inv
        exact .present hv hw
  | paren t => cases h with | delim h => exact .paren h
  | bracket t => cases h with | delim h => exact .bracket h
  | brace t => cases h with | delim h => exact .brace h
  | punctuated t p =>
    simp only [body] at h
    generalize hv : [v] = vs at h
    cases h with
    | build h =>
      cases hv
      obtain ⟨n, hn⟩ := term_types h
      exact .punctuated hn
  | separated t p =>
    simp only [body] at h
    generalize hv : [v] = vs at h
    cases h with
    | build h =>
      cases hv
      obtain ⟨v, ws, n, rfl, h1, h2⟩ := sepSeq_types h
      exact .separated (n := n) (.cons h1 h2)
  | any t =>
    simp only [body] at h
    generalize hv : [v] = vs at h
    cases h with
    | build h =>
      cases hv
      obtain ⟨n, hn⟩ := any_types h
      exact .any hn
  | leftAssoc o r =>
    simp only [body] at h
    generalize hv : [v] = vs at h
    cases h with
    | build h =>
      cases hv
      obtain ⟨v, ws, n, rfl, h1, h2⟩ := sepSeq_types h
      exact leftV_typed n _ _ (.leftRhs h1) h2
  | rightAssoc o l =>
    simp only [body] at h
    generalize hv : [v] = vs at h
    cases h with
    | build h =>
      cases hv
      obtain ⟨v, ws, n, rfl, h1, h2⟩ := sepSeq_types h
      exact rightV_typed n _ _ h1 h2
  | either l r =>
    simp only [body] at h
    generalize hv : [v] = vs at h
    cases h with
    | altL h => cases h with
      | attempt h => cases h with
        | build h => obtain ⟨v, rfl, h'⟩ := h.ty_inv; cases hv; exact .left h'
    | altR h => cases h with
      | build h => obtain ⟨v, rfl, h'⟩ := h.ty_inv; cases hv; exact .right h'

theorem parse_hasTy (env : Env) : ∀ (n : Nat) (t : Ty) (s : PState) (v : Val) (s' : PState), parse env n t s = .ok v s' → HasTy env t v
  | 0, _, _, _, _, h => by cases h
  | n + 1, t, s, v, s', h => by
    have h1 : exec (parse env n) n (body env t) s = .ok [v] s' := by rw [← parse_core, h]; rfl
    exact body_types (exec_has (H := HasTy env) (fun t s v s' h => parse_hasTy env n t s v s' h) n _ _ _ _ h1)

end Parsel
