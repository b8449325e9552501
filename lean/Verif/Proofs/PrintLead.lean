import Verif.Proofs.Refuse

/-! What is printed for a value is empty only if its type can be empty; otherwise it begins with what is printed for a leaf or group that the type can
start with. -/

namespace Parsel
open Spec
variable [Ext]

theorem seqLead_cons {env : Env} {t u : Ty} {ts : List Ty} (h : Lead env t u ∨ CanBeEmpty env t ∧ SeqLead env ts u) : SeqLead env (t :: ts) u := by
  rcases h with h | ⟨h, w, hw, hl⟩
  · exact ⟨t, seqStarts_cons (.inl rfl), h⟩
  · exact ⟨w, seqStarts_cons (.inr ⟨h, hw⟩), hl⟩

omit [Ext] in
theorem alternate_starts {env : Env} {t p u : Ty} : ∀ {n : Nat}, SeqStarts env (alternate t p n) u → u = t ∨ CanBeEmpty env t ∧ u = p
  | 0, ⟨pre, post, h, _⟩ => by cases pre <;> simp [alternate] at h
  | n + 1, ⟨[], post, h, _⟩ => by
    simp only [alternate, List.nil_append, List.cons.injEq] at h
    exact .inl h.1.symm
  | n + 1, ⟨q :: pre, post, h, he⟩ => by
    simp only [alternate, List.cons_append, List.cons.injEq] at h
    obtain ⟨rfl, h⟩ := h
    have ht : CanBeEmpty env t := he t (by simp)
    rcases alternate_starts (env := env) (t := p) (p := t) (n := n) ⟨pre, post, h, fun y hy => he y (by simp [hy])⟩ with rfl | ⟨_, rfl⟩
    · exact .inr ⟨ht, rfl⟩
    · exact .inl rfl

theorem alternate_lead {env : Env} {t p u : Ty} {n : Nat} (h : SeqLead env (alternate t p n) u) : SeqLead env [t, p] u := by
  obtain ⟨w, hw, hl⟩ := h
  refine ⟨w, ?_, hl⟩
  rcases alternate_starts hw with rfl | ⟨h, rfl⟩
  · exact seqStarts_cons (.inl rfl)
  · exact seqStarts_cons (.inr ⟨h, seqStarts_cons (.inl rfl)⟩)

omit [Ext] in
theorem replicate_starts {env : Env} {t u : Ty} {n : Nat} (h : SeqStarts env (List.replicate n t) u) : u = t := by
  obtain ⟨pre, post, h, _⟩ := h
  have : u ∈ List.replicate n t := by rw [h]; simp
  exact (List.mem_replicate.mp this).2

omit [Ext] in
theorem mem_alternate {t p x : Ty} : ∀ {n : Nat}, x ∈ alternate t p n → x = t ∨ x = p
  | 0, h => by cases h
  | n + 1, h => by
    simp only [alternate, List.mem_cons] at h
    rcases h with rfl | h
    · exact .inl rfl
    · exact (mem_alternate h).symm

/-- What is printed for a value begins with what is printed for `w`. -/
def BeginsWith (env : Env) (w : Ty) (ts : List TT) : Prop :=
  ∃ vw tw rest, HasTy env w vw ∧ vw.toTokens = some tw ∧ tw ≠ [] ∧ ts = tw ++ rest

/-- The claim about a value ... -/
def PL (env : Env) (t : Ty) (v : Val) : Prop :=
  ∀ ts, v.toTokens = some ts → (ts = [] → CanBeEmpty env t) ∧ (ts ≠ [] → ∃ w, Lead env t w ∧ BeginsWith env w ts)

/-- ... and about a list of values. -/
def PLs (env : Env) (tys : List Ty) (vs : List Val) : Prop :=
  ∀ ts, Val.toTokensL vs = some ts → (ts = [] → ∀ t ∈ tys, CanBeEmpty env t) ∧ (ts ≠ [] → ∃ w, SeqLead env tys w ∧ BeginsWith env w ts)

omit [Ext] in
theorem lead_of_seq {env : Env} {t u : Ty} {ts : List Ty} (h : ∀ w, SeqStarts env ts w → StartsWith env t w) (hl : SeqLead env ts u) : Lead env t u := by
  obtain ⟨w, hw, hl⟩ := hl
  exact lead_starts (h w hw) hl

theorem toTokensL_cons {v : Val} {vs : List Val} {ts : List TT} (h : Val.toTokensL (v :: vs) = some ts) :
    ∃ a b, v.toTokens = some a ∧ Val.toTokensL vs = some b ∧ ts = a ++ b := by
  simp only [Val.toTokensL, Option.bind_eq_some_iff, Option.map_eq_some_iff] at h
  obtain ⟨a, ha, b, hb, rfl⟩ := h
  exact ⟨a, b, ha, hb, rfl⟩

theorem toTokensL_append : ∀ {vs ws : List Val} {ts : List TT}, Val.toTokensL (vs ++ ws) = some ts →
    ∃ a b, Val.toTokensL vs = some a ∧ Val.toTokensL ws = some b ∧ ts = a ++ b
  | [], ws, ts, h => ⟨[], ts, rfl, h, rfl⟩
  | v :: vs, ws, ts, h => by
    obtain ⟨a, b, ha, hb, rfl⟩ := toTokensL_cons (v := v) (vs := vs ++ ws) h
    obtain ⟨c, d, hc, hd, rfl⟩ := toTokensL_append hb
    exact ⟨a ++ c, d, by simp [Val.toTokensL, ha, hc], hd, by simp⟩

theorem pls_cons {env : Env} {t : Ty} {tys : List Ty} {v : Val} {vs : List Val} (h1 : PL env t v) (h2 : PLs env tys vs) :
    PLs env (t :: tys) (v :: vs) := by
  intro ts h
  obtain ⟨a, b, ha, hb, rfl⟩ := toTokensL_cons h
  obtain ⟨e1, n1⟩ := h1 a ha
  obtain ⟨e2, n2⟩ := h2 b hb
  constructor
  · intro hn
    obtain ⟨rfl, rfl⟩ := List.append_eq_nil_iff.mp hn
    intro u hu
    rcases List.mem_cons.mp hu with rfl | hu
    · exact e1 rfl
    · exact e2 rfl u hu
  · intro hn
    by_cases haa : a = []
    · subst haa
      obtain ⟨w, hw, hb⟩ := n2 (by simpa using hn)
      exact ⟨w, seqLead_cons (.inr ⟨e1 rfl, hw⟩), by simpa using hb⟩
    · obtain ⟨w, hw, vw, tw, rest, hv, ht, hne, rfl⟩ := n1 haa
      exact ⟨w, seqLead_cons (.inl hw), vw, tw, rest ++ b, hv, ht, hne, by simp⟩

theorem pl_of_pls {env : Env} {t : Ty} {tys : List Ty} {tag : Tag} {vs : List Val} (h : PLs env tys vs)
    (he : (∀ u ∈ tys, CanBeEmpty env u) → CanBeEmpty env t) (hl : ∀ u, SeqLead env tys u → Lead env t u) : PL env t (.node tag vs) := by
  intro ts hts
  obtain ⟨h1, h2⟩ := h ts hts
  refine ⟨fun hn => he (h1 hn), fun hn => ?_⟩
  obtain ⟨w, hw, hb⟩ := h2 hn
  exact ⟨w, hl w hw, hb⟩

theorem pls_nil {env : Env} : PLs env [] [] := by
  intro ts h
  simp only [Val.toTokensL, Option.some.injEq] at h
  exact ⟨fun _ t ht => (by cases ht), fun hn => absurd h.symm hn⟩

theorem lit_nonempty {l : LitVal} {sp : Span} : litToTokens l sp ≠ some [] := by
  have hp : ∀ r, pushLiteral r sp ≠ [] := by
    intro r; unfold pushLiteral; split <;> simp
  intro h
  cases l with
  | bool => simp [litToTokens] at h
  | byte b => simp only [litToTokens, Option.map_eq_some_iff] at h; obtain ⟨r, _, h⟩ := h; exact hp r h
  | int => simp only [litToTokens, Option.some.injEq] at h; exact hp _ h
  | uint => simp only [litToTokens, Option.some.injEq] at h; exact hp _ h
  | float x => simp only [litToTokens, Option.map_eq_some_iff] at h; obtain ⟨r, _, h⟩ := h; exact hp r h
  | char => simp only [litToTokens, Option.some.injEq] at h; exact hp _ h
  | str => simp only [litToTokens, Option.some.injEq] at h; exact hp _ h
  | byteStr => simp only [litToTokens, Option.some.injEq] at h; exact hp _ h

theorem lit_empty {k : Leaf} {l : LitVal} {sp : Span} {p : Prop} (h : (Val.leaf k (.lit l sp)).toTokens = some []) : p := by
  have h1 : litToTokens l sp = some [] := by
    simp only [Val.toTokens, leafToTokens] at h
    exact h
  exact absurd h1 lit_nonempty

theorem pl_leaf {env : Env} {l : Leaf} {v : LeafVal} (h : LeafTy l v) : PL env (.leaf l) (.leaf l v) := by
  intro ts hts
  have self : IsLead (.leaf l) → ts ≠ [] → ∃ w, Lead env (.leaf l) w ∧ BeginsWith env w ts := fun hi hn =>
    ⟨.leaf l, ⟨hi, .inl rfl⟩, .leaf l v, ts, [], .leaf h, hts, hn, by simp⟩
  cases h with
  | empty => simp only [Val.toTokens, leafToTokens, Option.some.injEq] at hts; exact ⟨fun _ => .empty, fun hn => absurd hts.symm hn⟩
  | eof => exact ⟨fun _ => .eof, self trivial⟩
  | notEof => exact ⟨fun _ => .notEof, self trivial⟩
  | customIdent => simp only [Val.toTokens, leafToTokens, Option.some.injEq] at hts; exact ⟨fun hn => by subst hts; simp at hn, self trivial⟩
  | rustIdent => simp only [Val.toTokens, leafToTokens, Option.some.injEq] at hts; exact ⟨fun hn => by subst hts; simp at hn, self trivial⟩
  | keyword =>
    simp only [Val.toTokens, leafToTokens] at hts
    split at hts
    · simp only [Option.some.injEq] at hts; exact ⟨fun hn => by subst hts; simp at hn, self trivial⟩
    · cases hts
  | kwToken => simp only [Val.toTokens, leafToTokens, Option.some.injEq] at hts; exact ⟨fun hn => by subst hts; simp at hn, self trivial⟩
  | @punct tok sps hl =>
    simp only [Val.toTokens, leafToTokens, Option.some.injEq] at hts
    cases tok with
    | nil =>
      refine ⟨fun _ => .punct, fun hn => ?_⟩
      obtain rfl : sps = [] := List.length_eq_zero_iff.mp hl
      exact absurd hts.symm hn
    | cons c cs =>
      refine ⟨fun hn => ?_, self trivial⟩
      subst hts
      cases sps with
      | nil => simp at hl
      | cons sp sps =>
        cases cs <;> cases sps <;> simp [punctTokens] at hn hl
  | bool => exact ⟨fun hn => lit_empty (hn ▸ hts), self trivial⟩
  | byte => exact ⟨fun hn => lit_empty (hn ▸ hts), self trivial⟩
  | int => exact ⟨fun hn => lit_empty (hn ▸ hts), self trivial⟩
  | uint => exact ⟨fun hn => lit_empty (hn ▸ hts), self trivial⟩
  | float => exact ⟨fun hn => lit_empty (hn ▸ hts), self trivial⟩
  | char => exact ⟨fun hn => lit_empty (hn ▸ hts), self trivial⟩
  | str => exact ⟨fun hn => lit_empty (hn ▸ hts), self trivial⟩
  | byteStr => exact ⟨fun hn => lit_empty (hn ▸ hts), self trivial⟩
  | any => exact ⟨fun hn => lit_empty (hn ▸ hts), self trivial⟩

theorem pl_group {env : Env} {d : Delim} {t g : Ty} {sp : Span} {v : Val} (hg : HasTy env g (.group d sp v)) (hi : IsLead g) : PL env g (.group d sp v) := by
  intro ts hts
  have hne : ts ≠ [] := by
    simp only [Val.toTokens, Option.map_eq_some_iff] at hts
    obtain ⟨a, _, rfl⟩ := hts
    simp [delimToTokens]
  exact ⟨fun h => absurd h hne, fun _ => ⟨g, ⟨hi, .inl rfl⟩, _, ts, [], hg, hts, hne, by simp⟩⟩

omit [Ext] in
theorem seqStarts_inv {env : Env} {t u : Ty} {ts : List Ty} (h : SeqStarts env (t :: ts) u) : u = t ∨ CanBeEmpty env t ∧ SeqStarts env ts u := by
  obtain ⟨pre, post, h, he⟩ := h
  cases pre with
  | nil => simp only [List.nil_append, List.cons.injEq] at h; exact .inl h.1.symm
  | cons q pre =>
    simp only [List.cons_append, List.cons.injEq] at h
    obtain ⟨rfl, rfl⟩ := h
    exact .inr ⟨he _ (by simp), pre, post, rfl, fun y hy => he y (by simp [hy])⟩

omit [Ext] in
theorem seqLead_inv {env : Env} {t u : Ty} {ts : List Ty} (h : SeqLead env (t :: ts) u) : Lead env t u ∨ CanBeEmpty env t ∧ SeqLead env ts u := by
  obtain ⟨w, hw, hl⟩ := h
  rcases seqStarts_inv hw with rfl | ⟨he, hw⟩
  · exact .inl hl
  · exact .inr ⟨he, w, hw, hl⟩

theorem leftBin_lead {env : Env} {o r u : Ty} (h : SeqLead env [.leftAssoc o r, o, r] u) : Lead env (.leftAssoc o r) u := by
  rcases seqLead_inv h with h | ⟨he, h⟩
  · exact h
  · have hr : CanBeEmpty env r := by cases he with | leftAssoc h => exact h
    refine lead_of_seq (fun w hw => .leftAssoc hw) ?_
    rcases seqLead_inv h with h | ⟨_, h⟩
    · exact seqLead_cons (.inr ⟨hr, seqLead_cons (.inl h)⟩)
    · rcases seqLead_inv h with h | ⟨_, w, ⟨pre, post, h, _⟩, _⟩
      · exact seqLead_cons (.inl h)
      · cases pre <;> simp at h

theorem rightBin_lead {env : Env} {o r u : Ty} (h : SeqLead env [r, o, .rightAssoc o r] u) : Lead env (.rightAssoc o r) u := by
  rcases seqLead_inv h with h | ⟨hr, h⟩
  · exact lead_of_seq (fun w hw => .rightAssoc hw) (seqLead_cons (.inl h))
  · rcases seqLead_inv h with h | ⟨_, h⟩
    · exact lead_of_seq (fun w hw => .rightAssoc hw) (seqLead_cons (.inr ⟨hr, seqLead_cons (.inl h)⟩))
    · rcases seqLead_inv h with h | ⟨_, w, ⟨pre, post, h, _⟩, _⟩
      · exact h
      · cases pre <;> simp at h

mutual
theorem print_lead {env : Env} : ∀ {t : Ty} {v : Val}, HasTy env t v → PL env t v
  | _, _, .leaf h => pl_leaf h
  | _, _, .struct he h => pl_of_pls (prints_lead h) (fun h => .struct he h) fun _ => lead_of_seq fun _ hw => .struct he hw
  | _, _, .enum he hv h => pl_of_pls (prints_lead h) (fun h => .enum he hv h) fun _ => lead_of_seq fun _ hw => .enum he hv hw
  | _, _, .boxed h => fun ts hts => by
    obtain ⟨h1, h2⟩ := print_lead h ts hts
    refine ⟨fun hn => .boxed (h1 hn), fun hn => ?_⟩
    obtain ⟨w, hw, hb⟩ := h2 hn
    exact ⟨w, lead_starts .boxed hw, hb⟩
  | _, _, .absent => fun ts hts => by
    simp only [Val.toTokens, Val.toTokensL, Option.some.injEq] at hts
    exact ⟨fun _ => .maybe, fun hn => absurd hts.symm hn⟩
  | _, _, .present hp ht => pl_of_pls (pls_cons (print_lead hp) (pls_cons (print_lead ht) pls_nil)) (fun _ => .maybe) fun _ => lead_of_seq fun _ hw => .maybe hw
  | _, _, .paren h => pl_group (t := .named []) (.paren h) trivial
  | _, _, .bracket h => pl_group (t := .named []) (.bracket h) trivial
  | _, _, .brace h => pl_group (t := .named []) (.brace h) trivial
  | _, _, .punctuated h => pl_of_pls (prints_lead h) (fun _ => .punctuated) fun _ hw => lead_of_seq (fun _ hw => .punctuated hw) (alternate_lead hw)
  | _, _, .separated h => pl_of_pls (prints_lead h) (fun h => .separated (h _ (by simp [alternate]))) fun _ hw => lead_of_seq (fun _ hw => .separated hw) (alternate_lead hw)
  | _, _, .any h => pl_of_pls (prints_lead h) (fun _ => .any) fun _ hw => lead_of_seq (fun w hw => by rw [replicate_starts hw]; exact .any) hw
  | _, _, .leftRhs h => pl_of_pls (pls_cons (print_lead h) pls_nil) (fun h => .leftAssoc (h _ (by simp))) fun _ => lead_of_seq fun w hw => by
      refine .leftAssoc ?_
      rw [replicate_starts (n := 1) hw]
      exact seqStarts_cons (.inl rfl)
  | _, _, .leftBin hl ho hr => pl_of_pls (pls_cons (print_lead hl) (pls_cons (print_lead ho) (pls_cons (print_lead hr) pls_nil))) (fun h => h _ (by simp))
      fun u hu => leftBin_lead hu
  | _, _, .rightLhs h => pl_of_pls (pls_cons (print_lead h) pls_nil) (fun h => .rightAssoc (h _ (by simp))) fun _ => lead_of_seq fun w hw => by
      refine .rightAssoc ?_
      rw [replicate_starts (n := 1) hw]
      exact seqStarts_cons (.inl rfl)
  | _, _, .rightBin hl ho hr => pl_of_pls (pls_cons (print_lead hl) (pls_cons (print_lead ho) (pls_cons (print_lead hr) pls_nil)))
      (fun h => .rightAssoc (h _ (by simp))) fun u hu => rightBin_lead hu
  | _, _, .left h => pl_of_pls (pls_cons (print_lead h) pls_nil) (fun h => .eitherLeft (h _ (by simp))) fun _ => lead_of_seq fun w hw => by
      rw [replicate_starts (n := 1) hw]; exact .eitherLeft
  | _, _, .right h => pl_of_pls (pls_cons (print_lead h) pls_nil) (fun h => .eitherRight (h _ (by simp))) fun _ => lead_of_seq fun w hw => by
      rw [replicate_starts (n := 1) hw]; exact .eitherRight
theorem prints_lead {env : Env} : ∀ {ts : List Ty} {vs : List Val}, HasTys env ts vs → PLs env ts vs
  | _, _, .nil => pls_nil
  | _, _, .cons h hs => pls_cons (print_lead h) (prints_lead hs)
end

end Parsel
