import Verif.Proofs.Respell
import Verif.Proofs.Typed
import Verif.Proofs.LexWritable

/-! Values parsed from source text have a textual form. -/

namespace Parsel
open Spec

variable [Ext]

mutual
/-- The types of all leaves satisfy `P`. -/
def Val.AllLeaves (P : Leaf → Prop) : Val → Prop
  | .leaf l _ => P l
  | .group _ _ v => v.AllLeaves P
  | .node _ vs => AllLeavesL P vs
/-- The same for lists. -/
def AllLeavesL (P : Leaf → Prop) : List Val → Prop
  | [] => True
  | v :: vs => v.AllLeaves P ∧ AllLeavesL P vs
end

theorem mem_alternate_pair {t p u : Ty} : ∀ {n : Nat}, u ∈ alternate t p n → u ∈ [t, p] := by
  intro n
  induction n generalizing t p with
  | zero => intro h; cases h
  | succ n ih =>
    intro h
    simp only [alternate, List.mem_cons, List.not_mem_nil, or_false] at h ⊢
    rcases h with h | h
    · exact .inl h
    · have := ih h
      simp only [List.mem_cons, List.not_mem_nil, or_false] at this
      exact this.symm

mutual
/-- The leaves of a value belong to its type. -/
theorem hasTy_leaves {env : Env} {G : Ty → Prop} (hG : ∀ t, G t → ∀ u, PartOf env u t → G u) : ∀ {t : Ty} {v : Val}, HasTy env t v → G t → v.AllLeaves (fun l => G (.leaf l))
  | _, _, .leaf _, h => h
  | _, _, .struct he hs, h => hasTys_leaves hG hs fun u hu => hG _ h _ (.struct he hu)
  | _, _, .enum he hw hs, h => hasTys_leaves hG hs fun u hu => hG _ h _ (.enum he hw hu)
  | _, _, .boxed hv, h => hasTy_leaves hG hv (hG _ h _ .boxed)
  | _, _, .absent, h => trivial
  | _, _, .present h1 h2, h => ⟨hasTy_leaves hG h1 (hG _ h _ (.maybe (by simp))), hasTy_leaves hG h2 (hG _ h _ (.maybe (by simp))), trivial⟩
  | _, .group _ _ v, .paren hv, h => show v.AllLeaves _ from hasTy_leaves hG hv (hG _ h _ .paren)
  | _, .group _ _ v, .bracket hv, h => show v.AllLeaves _ from hasTy_leaves hG hv (hG _ h _ .bracket)
  | _, .group _ _ v, .brace hv, h => show v.AllLeaves _ from hasTy_leaves hG hv (hG _ h _ .brace)
  | _, _, .punctuated hs, h => hasTys_leaves hG hs fun u hu => hG _ h _ (.punctuated (mem_alternate_pair hu))
  | _, _, .separated hs, h => hasTys_leaves hG hs fun u hu => hG _ h _ (.separated (mem_alternate_pair hu))
  | _, _, .any hs, h => hasTys_leaves hG hs fun u hu => by rw [List.eq_of_mem_replicate hu]; exact hG _ h _ .any
  | _, _, .leftRhs h1, h => ⟨hasTy_leaves hG h1 (hG _ h _ (.leftAssoc (by simp))), trivial⟩
  | _, _, .leftBin h1 h2 h3, h =>
    ⟨hasTy_leaves hG h1 h, hasTy_leaves hG h2 (hG _ h _ (.leftAssoc (by simp))), hasTy_leaves hG h3 (hG _ h _ (.leftAssoc (by simp))), trivial⟩
  | _, _, .rightLhs h1, h => ⟨hasTy_leaves hG h1 (hG _ h _ (.rightAssoc (by simp))), trivial⟩
  | _, _, .rightBin h1 h2 h3, h =>
    ⟨hasTy_leaves hG h1 (hG _ h _ (.rightAssoc (by simp))), hasTy_leaves hG h2 (hG _ h _ (.rightAssoc (by simp))), hasTy_leaves hG h3 h, trivial⟩
  | _, _, .left h1, h => ⟨hasTy_leaves hG h1 (hG _ h _ (.either (by simp))), trivial⟩
  | _, _, .right h1, h => ⟨hasTy_leaves hG h1 (hG _ h _ (.either (by simp))), trivial⟩
theorem hasTys_leaves {env : Env} {G : Ty → Prop} (hG : ∀ t, G t → ∀ u, PartOf env u t → G u) : ∀ {ts : List Ty} {vs : List Val}, HasTys env ts vs → (∀ t ∈ ts, G t) →
    AllLeavesL (fun l => G (.leaf l)) vs
  | _, _, .nil, _ => trivial
  | _, _, .cons h1 h2, h => ⟨hasTy_leaves hG h1 (h _ (by simp)), hasTys_leaves hG h2 fun t ht => h t (by simp [ht])⟩
end

omit [Ext] in
theorem writable_occurs {t : TT} {ts : List TT} (h : Writable ts) (ho : Occurs t ts) :
    (∀ x sp, t = .ident x sp → IdentText x) ∧ (∀ r sp, t = .lit r sp → LitText r) := by
  induction h with
  | nil => cases ho
  | ident hx _ ih =>
    cases ho with
    | head => exact ⟨fun x sp h => by cases h; exact hx, by simp⟩
    | tail ho => exact ih ho
  | lit hx _ ih =>
    cases ho with
    | head => exact ⟨by simp, fun x sp h => by cases h; exact hx⟩
    | tail ho => exact ih ho
  | alone _ _ _ ih =>
    cases ho with
    | head => simp
    | tail ho => exact ih ho
  | joint _ _ _ ih =>
    cases ho with
    | head => simp
    | tail ho => exact ih ho
  | group _ _ ih1 ih2 =>
    cases ho with
    | head => simp
    | tail ho => exact ih2 ho
    | inside ho => exact ih1 ho

omit [Ext] in
theorem litText_unsigned {r : Text} (h : LitText r) : r.head? ≠ some '-' := by
  intro he
  cases r with
  | nil => cases he
  | cons c cs =>
    simp only [List.head?_cons, Option.some.injEq] at he
    subst he
    rcases h with h | h
    · have : lexLiteral ('-' :: cs) = (lexFloat ('-' :: cs)).orElse fun _ => lexInt ('-' :: cs) := rfl
      rw [this] at h
      have h1 : lexFloat ('-' :: cs) = none := rfl
      have h2 : lexInt ('-' :: cs) = none := rfl
      rw [h1, h2] at h
      cases h
    · exact absurd (List.cons.inj h).1 (by decide)

/-- A stream that has been lexed is ordinary. -/
theorem lexed_ordinary {src : Text} {ts : List TT} (h : lex src = some ts) : Ordinary ts ∧ Visible ts := by
  obtain ⟨h1, h2⟩ := lex_writable h
  have hv : Visible ts := h2 ▸ visible_dissolve ts
  exact ⟨⟨fun r sp ho => litText_unsigned ((writable_occurs h1 ho).2 r sp rfl), fun i sp ho => absurd ho (hv i sp)⟩, hv⟩

mutual
/-- A value read from words that are words, with operators that are operators, has a textual form. -/
theorem reads_hasText : ∀ (v : Val) (ts : List TT) (i : Bool), Reads i v ts → (∀ x sp, Occurs (.ident x sp) ts → IdentText x) → Visible ts →
    v.AllLeaves (fun l => ∀ tok, l = .punct tok → OperatorText tok) → HasText v
  | .leaf l v, ts, i, h, hw, hv, hl => by
    simp only [Reads] at h
    simp only [Val.AllLeaves] at hl
    simp only [HasText]
    cases h.2 with
    | unit _ => exact .unit
    | ident _ => exact .ident (hw _ _ .head)
    | keyword => exact .keyword
    | kwToken => exact .kwToken (hw _ _ .head)
    | punct hp => exact .punct (hl _ rfl) (punctRun_length hp).2
    | lit _ => exact .lit
  | .group d sp v, ts, i, h, hw, hv, hl => by
    simp only [Reads] at h
    obtain ⟨a, b, j, rfl, hr, _⟩ := h
    exact ⟨by rintro rfl; exact hv _ _ .head, reads_hasText v a j hr (fun x s ho => hw x s (.inside ho.left)) hv.inner.left hl⟩
  | .node tag vs, ts, i, h, hw, hv, hl => by
    simp only [Reads] at h
    exact readsL_hasText vs ts i h hw hv hl
theorem readsL_hasText : ∀ (vs : List Val) (ts : List TT) (i : Bool), ReadsL i vs ts → (∀ x sp, Occurs (.ident x sp) ts → IdentText x) → Visible ts →
    AllLeavesL (fun l => ∀ tok, l = .punct tok → OperatorText tok) vs → HasTextL vs
  | [], _, _, _, _, _, _ => trivial
  | v :: vs, ts, i, h, hw, hv, hl => by
    simp only [ReadsL] at h
    obtain ⟨a, b, j, k, rfl, h1, h2, _⟩ := h
    exact ⟨reads_hasText v a j h1 (fun x s ho => hw x s ho.left) hv.left hl.1, readsL_hasText vs b k h2 (fun x s ho => hw x s ho.right) hv.right hl.2⟩
end

mutual
theorem allLeaves_mono {P Q : Leaf → Prop} (h : ∀ l, P l → Q l) : ∀ (v : Val), v.AllLeaves P → v.AllLeaves Q
  | .leaf _ _, hv => h _ hv
  | .group _ _ v, hv => allLeaves_mono h v hv
  | .node _ vs, hv => allLeavesL_mono h vs hv
theorem allLeavesL_mono {P Q : Leaf → Prop} (h : ∀ l, P l → Q l) : ∀ (vs : List Val), AllLeavesL P vs → AllLeavesL Q vs
  | [], _ => trivial
  | v :: vs, hv => ⟨allLeaves_mono h v hv.1, allLeavesL_mono h vs hv.2⟩
end

end Parsel
