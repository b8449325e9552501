import Verif.Proofs.Complete
import Verif.Proofs.Reparse

/-! Values of a type and what they are printed as, however they were made. -/

namespace Parsel
open Spec

variable [Ext]

mutual
/-- The leaves have contents of their types, and no group is invisible. -/
def Formed : Val → Prop
  | .leaf l v => LeafTy l v
  | .group d _ v => d ≠ .none ∧ Formed v
  | .node _ vs => FormedL vs
/-- The same for lists. -/
def FormedL : List Val → Prop
  | [] => True
  | v :: vs => Formed v ∧ FormedL vs
end

mutual
theorem hasTy_formed {env : Env} : ∀ {t : Ty} {v : Val}, HasTy env t v → Formed v
  | _, _, .leaf h => h
  | _, _, .struct _ hs => hasTys_formed hs
  | _, _, .enum _ _ hs => hasTys_formed hs
  | _, _, .boxed hv => hasTy_formed hv
  | _, _, .absent => trivial
  | _, _, .present h1 h2 => ⟨hasTy_formed h1, hasTy_formed h2, trivial⟩
  | _, .group _ _ v, .paren hv => ⟨by simp, hasTy_formed hv⟩
  | _, .group _ _ v, .bracket hv => ⟨by simp, hasTy_formed hv⟩
  | _, .group _ _ v, .brace hv => ⟨by simp, hasTy_formed hv⟩
  | _, _, .punctuated hs => hasTys_formed hs
  | _, _, .separated hs => hasTys_formed hs
  | _, _, .any hs => hasTys_formed hs
  | _, _, .leftRhs h1 => ⟨hasTy_formed h1, trivial⟩
  | _, _, .leftBin h1 h2 h3 => ⟨hasTy_formed h1, hasTy_formed h2, hasTy_formed h3, trivial⟩
  | _, _, .rightLhs h1 => ⟨hasTy_formed h1, trivial⟩
  | _, _, .rightBin h1 h2 h3 => ⟨hasTy_formed h1, hasTy_formed h2, hasTy_formed h3, trivial⟩
  | _, _, .left h1 => ⟨hasTy_formed h1, trivial⟩
  | _, _, .right h1 => ⟨hasTy_formed h1, trivial⟩
theorem hasTys_formed {env : Env} : ∀ {ts : List Ty} {vs : List Val}, HasTys env ts vs → FormedL vs
  | _, _, .nil => trivial
  | _, _, .cons h1 h2 => ⟨hasTy_formed h1, hasTys_formed h2⟩
end

omit [Ext] in
theorem punctTokens_run : ∀ {tok : Text} {sps : List Span}, sps.length = tok.length → PunctRun tok sps (punctTokens tok sps)
  | [], [], _ => .nil
  | [c], [sp], _ => .last
  | c :: c' :: tok, sp :: sp' :: sps, h => .more (punctTokens_run (by simpa using h)) (by simp)

theorem leaf_own (laws : FloatLaws) {l : Leaf} {v : LeafVal} {out : List TT} (h : LeafTy l v) (ho : leafToTokens l v = some out) :
    LeafReads l v out ∧ dissolve out = out := by
  cases h with
  | keyword =>
    simp only [leafToTokens, Option.ite_none_right_eq_some, Option.some.injEq] at ho
    rw [← ho.2]; exact ⟨.keyword, rfl⟩
  | punct h =>
    simp only [leafToTokens, Option.some.injEq] at ho
    subst ho
    refine ⟨.punct (punctTokens_run h), ?_⟩
    rename_i tok sps
    clear h
    induction tok generalizing sps with
    | nil => cases sps <;> rfl
    | cons c tok ih => 
      cases sps with
      | nil => cases tok <;> rfl
      | cons sp sps =>
        cases tok with
        | nil => cases sps <;> rfl
        | cons c' tok =>
          show dissolve (.punct c .joint sp :: punctTokens (c' :: tok) sps) = _
          simp only [dissolve, dissolveT]
          rw [ih]; rfl
  | empty => simp only [leafToTokens, Option.some.injEq] at ho; subst ho; exact ⟨.unit (by simp), rfl⟩
  | eof => simp only [leafToTokens, Option.some.injEq] at ho; subst ho; exact ⟨.unit (by simp), rfl⟩
  | notEof => simp only [leafToTokens, Option.some.injEq] at ho; subst ho; exact ⟨.unit (by simp), rfl⟩
  | customIdent => simp only [leafToTokens, Option.some.injEq] at ho; subst ho; exact ⟨.ident (by simp), rfl⟩
  | rustIdent => simp only [leafToTokens, Option.some.injEq] at ho; subst ho; exact ⟨.ident (by simp), rfl⟩
  | kwToken => simp only [leafToTokens, Option.some.injEq] at ho; subst ho; exact ⟨.kwToken, rfl⟩
  | _ => exact ⟨.lit (litTokens_printed laws ho), dissolve_litToTokens (by simpa only [leafToTokens] using ho)⟩

mutual
theorem formed_own (laws : FloatLaws) : ∀ {v : Val} {out : List TT}, Formed v → v.toTokens = some out → Reads false v out ∧ dissolve out = out
  | .leaf l v, out, h, ho => ⟨⟨rfl, (leaf_own laws h ho).1⟩, (leaf_own laws h ho).2⟩
  | .group d sp v, out, h, ho => by
    simp only [Val.toTokens, Option.map_eq_some_iff] at ho
    obtain ⟨x, hx, rfl⟩ := ho
    obtain ⟨h1, h2⟩ := formed_own laws h.2 hx
    refine ⟨⟨x, [], false, by simp [delimToTokens], h1, rfl⟩, ?_⟩
    have hd := h.1
    cases d <;> simp_all [delimToTokens, dissolve, dissolveT]
  | .node _ vs, out, h, ho => formedL_own laws h ho
theorem formedL_own (laws : FloatLaws) : ∀ {vs : List Val} {out : List TT}, FormedL vs → Val.toTokensL vs = some out → ReadsL false vs out ∧ dissolve out = out
  | [], out, h, ho => by
    simp only [Val.toTokensL, Option.some.injEq] at ho
    subst ho; exact ⟨⟨rfl, rfl⟩, rfl⟩
  | v :: vs, out, h, ho => by
    obtain ⟨a, b, ha, hb, rfl⟩ := toTokensL_cons ho
    obtain ⟨h1, h2⟩ := formed_own laws h.1 ha
    obtain ⟨h3, h4⟩ := formedL_own laws h.2 hb
    exact ⟨⟨a, b, false, false, rfl, h1, h3, rfl⟩, by rw [dissolve_append, h2, h4]⟩
end

omit [Ext] in
theorem leafTy_prints [Ext] {l : Leaf} {v : LeafVal} (h : LeafTy l v) : (leafToTokens l v).isSome = true ↔ Printable (.leaf l v) := by
  have hl : ∀ (x : LitVal) (sp : Span), (litToTokens x sp).isSome = true ↔ LitVal.Finite x := by
    intro x sp
    rw [← Option.ne_none_iff_isSome, ne_eq, C38_literal_panics_iff]
    cases x <;> simp [LitVal.Finite]
  cases h with
  | keyword => rename_i kw sp; simp only [leafToTokens, Printable]; cases identOk kw <;> simp
  | empty => simp [leafToTokens, Printable]
  | eof => simp [leafToTokens, Printable]
  | notEof => simp [leafToTokens, Printable]
  | customIdent => simp [leafToTokens, Printable]
  | rustIdent => simp [leafToTokens, Printable]
  | kwToken => simp [leafToTokens, Printable]
  | punct => simp [leafToTokens, Printable]
  | _ => simp only [leafToTokens, Printable]; exact hl _ _

mutual
theorem formed_prints : ∀ {v : Val}, Formed v → (v.toTokens.isSome = true ↔ Printable v)
  | .leaf l v, h => by simp only [Val.toTokens]; exact leafTy_prints h
  | .group d sp v, h => by simp only [Val.toTokens, Option.isSome_map, Printable]; exact formed_prints h.2
  | .node _ vs, h => by simp only [Val.toTokens, Printable]; exact formedL_prints h
theorem formedL_prints : ∀ {vs : List Val}, FormedL vs → ((Val.toTokensL vs).isSome = true ↔ PrintableL vs)
  | [], h => by simp [Val.toTokensL, PrintableL]
  | v :: vs, h => by
    have h1 := formed_prints h.1
    have h2 := formedL_prints h.2
    simp only [Val.toTokensL, PrintableL, ← h1, ← h2]
    cases v.toTokens <;> cases Val.toTokensL vs <;> simp
end

/-- The leaf type's text is an identifier (but not one chosen by the user), an operator or a literal. -/
def TextLeaf : Leaf → Prop
  | .customIdent _ => False
  | .rustIdent => False
  | .kwToken kw => IdentText kw
  | .punct tok => OperatorText tok
  | _ => True

mutual
theorem formed_text : ∀ {v : Val}, Formed v → v.AllLeaves TextLeaf → HasText v
  | .leaf l v, h, ht => by
    simp only [Val.AllLeaves] at ht
    simp only [HasText]
    cases h with
    | customIdent => exact ht.elim
    | rustIdent => exact ht.elim
    | keyword => exact .keyword
    | kwToken => exact .kwToken ht
    | punct h => exact .punct ht h
    | empty => exact .unit
    | eof => exact .unit
    | notEof => exact .unit
    | _ => exact .lit
  | .group d sp v, h, ht => ⟨h.1, formed_text h.2 ht⟩
  | .node _ vs, h, ht => formedL_text h ht
theorem formedL_text : ∀ {vs : List Val}, FormedL vs → AllLeavesL TextLeaf vs → HasTextL vs
  | [], _, _ => trivial
  | v :: vs, h, ht => ⟨formed_text h.1 ht.1, formedL_text h.2 ht.2⟩
end

end Parsel
