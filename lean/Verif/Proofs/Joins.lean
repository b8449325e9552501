import Verif.Spec.Joins
import Verif.Proofs.LL1
import Verif.Proofs.Complete

/-! In a grammar that passes the check of Spec/Joins.lean, what is printed for a value has no operators that look like parts of longer ones. -/

namespace Parsel
open Spec

theorem sideBySide_of {c c' : Char} : ∀ {tok : Text}, [c, c'] <:+: tok → sideBySide c c' tok = true
  | [], h => by have := h.length_le; simp at this
  | [a], h => by have := h.length_le; simp at this
  | a :: b :: r, h => by
    simp only [sideBySide, Bool.or_eq_true, Bool.and_eq_true, beq_iff_eq]
    rcases List.infix_cons_iff.mp h with h | h
    · obtain ⟨x, hx⟩ := h
      simp only [List.cons_append, List.nil_append, List.cons.injEq] at hx
      exact .inl ⟨hx.1.symm, hx.2.1.symm⟩
    · exact .inr (sideBySide_of h)

/-! ### two tokens side by side -/

theorem segment_append {p q : TT} {a b : List TT} (h : Segment [p, q] (a ++ b)) :
    Segment [p, q] a ∨ Segment [p, q] b ∨ ∃ a' b', a = a' ++ [p] ∧ b = q :: b' := by
  generalize e : a ++ b = ts at h
  cases h with
  | @here x y =>
    rw [List.append_assoc] at e
    rcases List.append_eq_append_iff.mp e with ⟨z, h1, h2⟩ | ⟨z, h1, h2⟩
    · -- x = a ++ z
      exact .inr (.inl (by rw [h2, ← List.append_assoc]; exact .here))
    · -- a = x ++ z, [p, q] ++ y = z ++ b
      cases z with
      | nil => rw [List.nil_append] at h2; exact .inr (.inl (by rw [← h2]; exact .here (a := [])))
      | cons z1 z =>
        simp only [List.cons_append, List.cons.injEq, List.nil_append] at h2
        obtain ⟨rfl, h2⟩ := h2
        cases z with
        | nil => exact .inr (.inr ⟨x, y, h1, by simpa using h2.symm⟩)
        | cons z2 z =>
          simp only [List.cons_append, List.cons.injEq] at h2
          obtain ⟨rfl, rfl⟩ := h2
          left
          rw [h1, show x ++ p :: q :: z = x ++ [p, q] ++ z by simp]
          exact .here
  | @inside x d inner sp y hi =>
    rcases List.append_eq_append_iff.mp e with ⟨z, h1, h2⟩ | ⟨z, h1, h2⟩
    · exact .inr (.inl (by rw [h2]; exact .inside hi))
    · cases z with
      | nil => rw [List.nil_append] at h2; exact .inr (.inl (by rw [← h2]; exact .inside (a := []) hi))
      | cons z1 z =>
        simp only [List.cons_append, List.cons.injEq] at h2
        obtain ⟨rfl, h2⟩ := h2
        exact .inl (by rw [h1]; exact .inside hi)

theorem unglued_append {R : Char → Char → Prop} {a b : List TT} (ha : Unglued R a) (hb : Unglued R b)
    (h : ∀ c sp a' c' spc' sp' b', a = a' ++ [.punct c .alone sp] → b = .punct c' spc' sp' :: b' → ¬ R c c') : Unglued R (a ++ b) := by
  intro c sp c' spc' sp' hs
  rcases segment_append hs with hs | hs | ⟨a', b', e1, e2⟩
  · exact ha _ _ _ _ _ hs
  · exact hb _ _ _ _ _ hs
  · exact h _ _ _ _ _ _ _ e1 e2

theorem segment_nil {p q : TT} (h : Segment [p, q] []) : False := by
  have : ∀ {b ts : List TT}, Segment b ts → b = [p, q] → ts = [] → False := by
    intro b ts h eb e
    cases h with
    | here => subst eb; simp at e
    | inside _ => simp at e
  exact this h rfl rfl

theorem segment_one {p q t : TT} (h : Segment [p, q] [t]) : ∃ d i sp, t = .group d i sp ∧ Segment [p, q] i := by
  generalize e : [t] = ts at h
  cases h with
  | @here x y => have := congrArg List.length e; simp at this; omega
  | @inside x d inner sp y hi =>
    cases x with
    | nil => simp only [List.nil_append, List.cons.injEq] at e; exact ⟨_, _, _, e.1, hi⟩
    | cons _ _ => simp at e

theorem unglued_nil {R : Char → Char → Prop} : Unglued R [] := fun _ _ _ _ _ h => (segment_nil h).elim

theorem unglued_group {R : Char → Char → Prop} {d : Delim} {i : List TT} {sp : Span} (h : Unglued R i) : Unglued R [.group d i sp] := by
  intro c s c' spc' s' hs
  obtain ⟨_, _, _, e, hi⟩ := segment_one hs
  cases e
  exact h _ _ _ _ _ hi

theorem unglued_leaf {R : Char → Char → Prop} {t : TT} (h : ∀ d i sp, t ≠ .group d i sp) : Unglued R [t] := by
  intro c s c' spc' s' hs
  obtain ⟨_, _, _, e, _⟩ := segment_one hs
  exact absurd e (h _ _ _)

theorem unglued_punct {R : Char → Char → Prop} : ∀ (tok : Text) (sps : List Span), Unglued R (punctTokens tok sps)
  | [], sps => by rw [show punctTokens [] sps = [] by cases sps <;> rfl]; exact unglued_nil
  | [c], [] => unglued_nil
  | [c], [sp] => unglued_leaf (by simp)
  | [c], sp :: sp' :: sps => by
    rw [show punctTokens [c] (sp :: sp' :: sps) = [.punct c .joint sp] by simp [punctTokens]]
    exact unglued_leaf (by simp)
  | c :: c' :: cs, [] => unglued_nil
  | c :: c' :: cs, sp :: sps => by
    rw [show punctTokens (c :: c' :: cs) (sp :: sps) = [.punct c .joint sp] ++ punctTokens (c' :: cs) sps by simp [punctTokens]]
    refine unglued_append (unglued_leaf (by simp)) (unglued_punct _ _) ?_
    intro c1 s1 a' c2 spc2 s2 b' e
    cases a' with
    | nil => simp at e
    | cons x a' => simp at e

theorem punctTokens_last : ∀ {tok : Text} {sps : List Span} {pre : List TT} {c : Char} {sp : Span}, sps.length = tok.length →
    punctTokens tok sps = pre ++ [.punct c .alone sp] → tok.getLast? = some c
  | [], [], pre, c, sp, _, h => by simp [punctTokens] at h
  | [a], [s], pre, c, sp, _, h => by
    cases pre with
    | nil => simp [punctTokens] at h; simp [h]
    | cons x pre => simp [punctTokens] at h
  | a :: b :: tok, s :: sps, pre, c, sp, hl, h => by
    rw [show punctTokens (a :: b :: tok) (s :: sps) = .punct a .joint s :: punctTokens (b :: tok) sps by simp [punctTokens]] at h
    cases pre with
    | nil => simp at h
    | cons x pre =>
      simp only [List.cons_append, List.cons.injEq] at h
      have := punctTokens_last (by simpa using hl) h.2
      rw [List.getLast?_cons_cons]; exact this

section
variable [Ext]

theorem begins_with {env : Env} {w : Ty} {ts : List TT} (hi : IsLead w) (h : BeginsWith env w ts) {c : Char} {spc : Spacing} {sp : Span} {rest : List TT}
    (e : ts = .punct c spc sp :: rest) : c ∈ beginChars w := by
  obtain ⟨vw, tw, r, hv, ht, hne, rfl⟩ := h
  obtain ⟨x, tw', rfl⟩ := List.exists_cons_of_ne_nil hne
  simp only [List.cons_append, List.cons.injEq] at e
  obtain ⟨rfl, _⟩ := e
  cases hv with
  | leaf hl =>
    have hp := leaf_prints hl ht hne
    generalize e : TT.punct c spc sp :: tw' = ts at hp
    cases hp with
    | word _ => cases e
    | @punct b sps hb hlen =>
      cases b with
      | nil => exact absurd rfl hb
      | cons a b =>
        cases sps with
        | nil => simp at hlen
        | cons s sps =>
          have : a = c := by
            cases b <;> cases sps <;> simp [punctTokens] at e <;> exact e.1.1.symm
          subst this
          exact .head _
    | lit => cases e
    | minus hk =>
      cases e
      simp [beginChars, hk]
  | paren h => obtain ⟨a, _, e⟩ := Option.map_eq_some_iff.mp ht; simp [delimToTokens] at e
  | bracket h => obtain ⟨a, _, e⟩ := Option.map_eq_some_iff.mp ht; simp [delimToTokens] at e
  | brace h => obtain ⟨a, _, e⟩ := Option.map_eq_some_iff.mp ht; simp [delimToTokens] at e
  | _ => cases hi

end

/-! ### the tables are right -/

section
variable {env : Env} {G : List Ty} {c : Tables} {stop : Ty → List Char}

/-- A part of the sequence that can be last ends with the character. -/
def SeqStops (env : Env) (stop : Ty → List Char) (ts : List Ty) (a : Char) : Prop := ∃ pre t post, ts = pre ++ t :: post ∧ (∀ y ∈ post, CanBeEmpty env y) ∧ a ∈ stop t

/-- What `seqLoose` checks. -/
def SeqLoose (env : Env) (G : List Ty) (stop : Ty → List Char) (ts : List Ty) : Prop :=
  ∀ pre t post, ts = pre ++ t :: post → ∀ a ∈ stop t, ∀ u, SeqLead env post u → ∀ b ∈ beginChars u, glues G a b = false

theorem seqStops_cons {t : Ty} {ts : List Ty} {a : Char} (h : (∀ y ∈ ts, CanBeEmpty env y) ∧ a ∈ stop t ∨ SeqStops env stop ts a) : SeqStops env stop (t :: ts) a := by
  rcases h with ⟨h1, h2⟩ | ⟨pre, u, post, rfl, h1, h2⟩
  · exact ⟨[], t, ts, rfl, h1, h2⟩
  · exact ⟨t :: pre, u, post, rfl, h1, h2⟩

theorem seqStops_inv {t : Ty} {ts : List Ty} {a : Char} (h : SeqStops env stop (t :: ts) a) : (∀ y ∈ ts, CanBeEmpty env y) ∧ a ∈ stop t ∨ SeqStops env stop ts a := by
  obtain ⟨pre, u, post, e, h1, h2⟩ := h
  cases pre with
  | nil => simp only [List.nil_append, List.cons.injEq] at e; obtain ⟨rfl, rfl⟩ := e; exact .inl ⟨h1, h2⟩
  | cons x pre => simp only [List.cons_append, List.cons.injEq] at e; exact .inr ⟨pre, u, post, e.2, h1, h2⟩

theorem seqStops_nil {a : Char} (h : SeqStops env stop [] a) : False := by
  obtain ⟨pre, _, _, e, _⟩ := h
  cases pre <;> simp at e

theorem Covers.seqStop (hc : Covers env G c) {a : Char} : ∀ {ts : List Ty}, (∀ t ∈ ts, t ∈ G) → SeqStops env stop ts a → a ∈ c.seqStop stop ts
  | [], _, h => (seqStops_nil h).elim
  | t :: ts, hG, h => by
    simp only [Tables.seqStop, List.mem_append]
    rcases seqStops_inv h with ⟨h1, h2⟩ | h
    · left
      rw [if_pos (List.all_eq_true.mpr fun y hy => hc.emp (h1 y hy) (hG y (by simp [hy])))]
      exact h2
    · exact .inr (hc.seqStop (fun y hy => hG y (by simp [hy])) h)

theorem loose_sound {cs : List Char} {us : List Ty} (h : Tables.loose G cs us = true) {a : Char} (ha : a ∈ cs) {u : Ty} (hu : u ∈ us) {b : Char} (hb : b ∈ beginChars u) :
    glues G a b = false := by
  simp only [Tables.loose, List.all_eq_true, Bool.not_eq_true'] at h
  exact h a ha u hu b hb

theorem seqLoose_sound (hc : Covers env G c) : ∀ {ts : List Ty}, (∀ t ∈ ts, t ∈ G) → c.seqLoose stop G ts = true → SeqLoose env G stop ts
  | [], _, _ => fun pre t post hs => by cases pre <;> simp at hs
  | t :: ts, hG, h => by
    simp only [Tables.seqLoose, Bool.and_eq_true] at h
    intro pre x post hs a ha u hu b hb
    cases pre with
    | nil =>
      simp only [List.nil_append, List.cons.injEq] at hs
      obtain ⟨rfl, rfl⟩ := hs
      exact loose_sound h.1 ha (hc.seqFirst (fun y hy => hG y (by simp [hy])) hu) hb
    | cons y pre =>
      simp only [List.cons_append, List.cons.injEq] at hs
      exact seqLoose_sound hc (fun y hy => hG y (by simp [hy])) h.2 pre x post hs.2 a ha u hu b hb

theorem altLoose_sound [Ext] (hc : Covers env G c) {t p : Ty} (ht : t ∈ G) (hp : p ∈ G) (h : c.altLoose stop G t p = true) (n : Nat) : SeqLoose env G stop (alternate t p n) := by
  simp only [Tables.altLoose, Bool.and_eq_true] at h
  intro pre x post hs a ha u hu b hb
  rcases alternate_split hs with ⟨rfl, m, rfl⟩ | ⟨rfl, m, rfl⟩
  · exact loose_sound h.1 ha (hc.seqFirst (by simp [ht, hp]) (alternate_lead hu)) hb
  · exact loose_sound h.2 ha (hc.seqFirst (by simp [ht, hp]) (alternate_lead hu)) hb

theorem seqLoose_tail {t : Ty} {ts : List Ty} (h : SeqLoose env G stop (t :: ts)) : SeqLoose env G stop ts :=
  fun pre x post hs => h (t :: pre) x post (by rw [hs]; rfl)

/-- The tables are right: what `separable` checks. -/
structure Stops (env : Env) (G : List Ty) (c : Tables) (stop : Ty → List Char) : Prop where
  step : ∀ t ∈ G, ∀ a ∈ c.stopStep stop env t, a ∈ stop t
  loose : ∀ t ∈ G, c.looseAt stop env G t = true

variable [Ext]

/-- The claim about a value ... -/
def UG (G : List Ty) (stop : Ty → List Char) (t : Ty) (v : Val) : Prop :=
  ∀ out, v.toTokens = some out → Unglued (fun a b => glues G a b = true) out ∧ ∀ pre a sp, out = pre ++ [.punct a .alone sp] → a ∈ stop t

/-- ... and about a list of values. -/
def UGs (env : Env) (G : List Ty) (stop : Ty → List Char) (tys : List Ty) (vs : List Val) : Prop :=
  ∀ out, Val.toTokensL vs = some out → Unglued (fun a b => glues G a b = true) out ∧ ∀ pre a sp, out = pre ++ [.punct a .alone sp] → SeqStops env stop tys a

theorem ugs_nil : UGs env G stop [] [] := by
  intro out h
  simp only [Val.toTokensL, Option.some.injEq] at h
  subst h
  exact ⟨unglued_nil, fun pre a sp e => by simp at e⟩

theorem ugs_cons {t : Ty} {tys : List Ty} {v : Val} {vs : List Val} (hs : SeqLoose env G stop (t :: tys)) (h1 : UG G stop t v) (h2 : UGs env G stop tys vs)
    (hl : PLs env tys vs) : UGs env G stop (t :: tys) (v :: vs) := by
  intro out h
  obtain ⟨a, b, ha, hb, rfl⟩ := toTokensL_cons h
  obtain ⟨u1, l1⟩ := h1 a ha
  obtain ⟨u2, l2⟩ := h2 b hb
  obtain ⟨e2, n2⟩ := hl b hb
  constructor
  · refine unglued_append u1 u2 ?_
    intro x sp a' y spc' sp' b' e e' hg
    obtain ⟨w, ⟨z, hz, hw⟩, hbw⟩ := n2 (by rw [e']; simp)
    have := hs [] t tys rfl x (l1 _ _ _ e) w ⟨z, hz, hw⟩ y (begins_with hw.1 hbw e')
    rw [this] at hg
    cases hg
  · intro pre x sp e
    by_cases hbn : b = []
    · subst hbn
      rw [List.append_nil] at e
      exact seqStops_cons (.inl ⟨e2 rfl, l1 _ _ _ e⟩)
    · obtain ⟨ini, l, rfl⟩ : ∃ ini l, b = ini ++ [l] := ⟨b.dropLast, b.getLast hbn, (List.dropLast_concat_getLast hbn).symm⟩
      rw [← List.append_assoc] at e
      have := List.append_inj' e rfl
      exact seqStops_cons (.inr (l2 ini x sp (by rw [this.2])))

theorem ug_node {t : Ty} {tys : List Ty} {tag : Tag} {vs : List Val} (h : UGs env G stop tys vs) (hl : ∀ a, SeqStops env stop tys a → a ∈ stop t) :
    UG G stop t (.node tag vs) := by
  intro out ho
  obtain ⟨h1, h2⟩ := h out ho
  exact ⟨h1, fun pre a sp e => hl a (h2 pre a sp e)⟩

theorem ug_group {t : Ty} {d : Delim} {sp : Span} {v : Val} {u : Ty} (h : UG G stop u v) : UG G stop t (.group d sp v) := by
  intro out ho
  obtain ⟨i, hi, rfl⟩ := Option.map_eq_some_iff.mp ho
  refine ⟨unglued_group (h i hi).1, fun pre a s e => ?_⟩
  cases pre with
  | nil => simp [delimToTokens] at e
  | cons x pre => simp [delimToTokens] at e

theorem ug_leaf (hs : Stops env G c stop) {l : Leaf} (hG : Ty.leaf l ∈ G) {v : LeafVal} (h : LeafTy l v) : UG G stop (.leaf l) (.leaf l v) := by
  intro out ho
  by_cases hne : out = []
  · subst hne; exact ⟨unglued_nil, fun pre a sp e => by simp at e⟩
  cases leaf_prints h ho hne with
  | word _ => exact ⟨unglued_leaf (by simp), fun pre a sp e => by cases pre <;> simp at e⟩
  | punct hb hl => exact ⟨unglued_punct _ _, fun pre a sp e => hs.step _ hG a (by simp only [Tables.stopStep]; rw [punctTokens_last hl e]; exact .head _)⟩
  | lit => exact ⟨unglued_leaf (by simp), fun pre a sp e => by cases pre <;> simp at e⟩
  | minus _ =>
    refine ⟨?_, fun pre a sp e => ?_⟩
    · refine unglued_append (a := [_]) (unglued_leaf (by simp)) (unglued_leaf (by simp)) ?_
      intro _ _ _ _ _ _ _ _ e
      simp at e
    · match pre with
      | [] => simp at e
      | [x] => simp at e
      | x :: y :: pre => simp at e

theorem stops_alternate {t p : Ty} {a : Char} {n : Nat} (h : SeqStops env stop (alternate t p n) a) : a ∈ stop t ∨ a ∈ stop p := by
  obtain ⟨pre, x, post, e, _, ha⟩ := h
  rcases alternate_split e with ⟨rfl, _⟩ | ⟨rfl, _⟩
  · exact .inl ha
  · exact .inr ha

theorem stops_odd {t p : Ty} {a : Char} {n : Nat} (h : SeqStops env stop (alternate t p (2 * n + 1)) a) : a ∈ stop t ∨ CanBeEmpty env t ∧ a ∈ stop p := by
  obtain ⟨pre, x, post, e, he, ha⟩ := h
  rcases alternate_odd e with rfl | ⟨rfl, ht⟩
  · exact .inl ha
  · exact .inr ⟨he _ ht, ha⟩

mutual
theorem print_unglued (hc : Covers env G c) (hs : Stops env G c stop) : ∀ {t : Ty} {v : Val}, t ∈ G → HasTy env t v → UG G stop t v
  | _, _, ht, .leaf h => ug_leaf hs ht h
  | _, _, ht, .struct he h => by
    rename_i fields _
    have hG : ∀ u ∈ fieldTypes fields, u ∈ G := fun u hu => hc.part ht (.struct he hu)
    have hl := hs.loose _ ht
    simp only [Tables.looseAt, he] at hl
    refine ug_node (prints_unglued hc hs hG (seqLoose_sound hc hG hl) h) fun a ha => hs.step _ ht a ?_
    simp only [Tables.stopStep, he]
    exact hc.seqStop hG ha
  | _, _, ht, .enum he hw h => by
    rename_i vs w _
    have hG : ∀ u ∈ fieldTypes w.fields, u ∈ G := fun u hu => hc.part ht (.enum he hw hu)
    have hl := hs.loose _ ht
    simp only [Tables.looseAt, he, List.all_eq_true] at hl
    refine ug_node (prints_unglued hc hs hG (seqLoose_sound hc hG (hl w hw)) h) fun a ha => hs.step _ ht a ?_
    simp only [Tables.stopStep, he, List.mem_flatMap]
    exact ⟨w, hw, hc.seqStop hG ha⟩
  | _, _, ht, .boxed h => fun out ho => by
    obtain ⟨h1, h2⟩ := print_unglued hc hs (hc.part ht .boxed) h out ho
    exact ⟨h1, fun pre a sp e => hs.step _ ht a (h2 pre a sp e)⟩
  | _, _, ht, .absent => ug_node (ugs_nil (env := env)) fun a ha => (seqStops_nil ha).elim
  | _, _, ht, .present hp h => by
    rename_i p t _ _
    have hp' := hc.part ht (.maybe (.head _) : PartOf env p (.maybe p t))
    have ht' := hc.part ht (.maybe (.tail _ (.head _)) : PartOf env t (.maybe p t))
    have hG : ∀ u ∈ [p, t], u ∈ G := by intro u hu; simp at hu; rcases hu with rfl | rfl <;> assumption
    have hl := seqLoose_sound hc hG (show c.seqLoose stop G [p, t] = true from hs.loose _ ht)
    refine ug_node (ugs_cons hl (print_unglued hc hs hp' hp) (ugs_cons (seqLoose_tail hl) (print_unglued hc hs ht' h) ugs_nil pls_nil) (pls_cons (print_lead h) pls_nil)) ?_
    exact fun a ha => hs.step _ ht a (hc.seqStop hG ha)
  | _, _, ht, .paren h => ug_group (print_unglued hc hs (hc.part ht .paren) h)
  | _, _, ht, .bracket h => ug_group (print_unglued hc hs (hc.part ht .bracket) h)
  | _, _, ht, .brace h => ug_group (print_unglued hc hs (hc.part ht .brace) h)
  | _, _, ht, .punctuated h => by
    rename_i t p n _
    have ht' := hc.part ht (.punctuated (.head _) : PartOf env t (.punctuated t p))
    have hp' := hc.part ht (.punctuated (.tail _ (.head _)) : PartOf env p (.punctuated t p))
    refine ug_node (prints_unglued hc hs (fun u hu => by rcases mem_alternate hu with rfl | rfl <;> assumption) (altLoose_sound hc ht' hp' (hs.loose _ ht) n) h) ?_
    exact fun a ha => hs.step _ ht a (List.mem_append.mpr (stops_alternate ha))
  | _, _, ht, .separated h => by
    rename_i t p n _
    have ht' := hc.part ht (.separated (.head _) : PartOf env t (.separated t p))
    have hp' := hc.part ht (.separated (.tail _ (.head _)) : PartOf env p (.separated t p))
    refine ug_node (prints_unglued hc hs (fun u hu => by rcases mem_alternate hu with rfl | rfl <;> assumption) (altLoose_sound hc ht' hp' (hs.loose _ ht) _) h) ?_
    intro a ha
    refine hs.step _ ht a (List.mem_append.mpr ?_)
    rcases stops_odd ha with h | ⟨he, h⟩
    · exact .inl h
    · right; rw [if_pos (hc.emp he ht')]; exact h
  | _, _, ht, .any h => by
    rename_i t n _
    have ht' := hc.part ht (.any : PartOf env t (.any t))
    refine ug_node (prints_unglued hc hs (fun u hu => by rw [(List.mem_replicate.mp hu).2]; exact ht') ?_ h) ?_
    · intro pre x post e a ha u hu b hb
      have hx : x ∈ List.replicate n t := by rw [e]; simp
      have hp : ∀ y ∈ post, y = t := fun y hy => (List.mem_replicate.mp (show y ∈ List.replicate n t by rw [e]; simp [hy])).2
      rw [(List.mem_replicate.mp hx).2] at ha
      obtain ⟨w, hw, hl⟩ := hu
      rw [hp w (seqStarts_mem hw)] at hl
      exact loose_sound (show Tables.loose G (stop t) (c.first t) = true from hs.loose _ ht) ha (hc.first ht' hl) hb
    · rintro a ⟨pre, x, post, e, _, ha⟩
      have hx : x ∈ List.replicate n t := by rw [e]; simp
      rw [(List.mem_replicate.mp hx).2] at ha
      exact hs.step _ ht a ha
  | _, _, ht, .leftRhs h => by
    rename_i o r _
    have hr := hc.part ht (.leftAssoc (.tail _ (.head _)) : PartOf env r (.leftAssoc o r))
    have hl := hs.loose _ ht
    refine ug_node (env := env) (ugs_cons (fun pre x post e a ha u hu => ?_) (print_unglued hc hs hr h) ugs_nil pls_nil) ?_
    · cases pre with
      | nil =>
        simp only [List.nil_append, List.cons.injEq] at e
        obtain ⟨_, rfl⟩ := e
        obtain ⟨w, hw, _⟩ := hu
        cases seqStarts_mem hw
      | cons y pre => simp at e
    · intro a ha
      rcases seqStops_inv ha with ⟨_, h⟩ | h
      · exact hs.step _ ht a (List.mem_append.mpr (.inl h))
      · exact (seqStops_nil h).elim
  | _, _, ht, .leftBin hl ho hr => by
    rename_i o r _ _ _
    have ho' := hc.part ht (.leftAssoc (.head _) : PartOf env o (.leftAssoc o r))
    have hr' := hc.part ht (.leftAssoc (.tail _ (.head _)) : PartOf env r (.leftAssoc o r))
    have hG : ∀ u ∈ [.leftAssoc o r, o, r], u ∈ G := by intro u hu; simp at hu; rcases hu with rfl | rfl | rfl <;> assumption
    have hlo := seqLoose_sound hc hG (hs.loose _ ht)
    refine ug_node (ugs_cons hlo (print_unglued hc hs ht hl) (ugs_cons (seqLoose_tail hlo) (print_unglued hc hs ho' ho)
      (ugs_cons (seqLoose_tail (seqLoose_tail hlo)) (print_unglued hc hs hr' hr) ugs_nil pls_nil) (pls_cons (print_lead hr) pls_nil))
      (pls_cons (print_lead ho) (pls_cons (print_lead hr) pls_nil))) ?_
    intro a ha
    rcases seqStops_inv ha with ⟨_, h⟩ | h
    · exact h
    refine hs.step _ ht a (List.mem_append.mpr ?_)
    rcases seqStops_inv h with ⟨he, h⟩ | h
    · right; rw [if_pos (hc.emp (he r (by simp)) hr')]; exact h
    · rcases seqStops_inv h with ⟨_, h⟩ | h
      · exact .inl h
      · exact (seqStops_nil h).elim
  | _, _, ht, .rightLhs h => by
    rename_i o l _
    have hl' := hc.part ht (.rightAssoc (.tail _ (.head _)) : PartOf env l (.rightAssoc o l))
    refine ug_node (env := env) (ugs_cons (fun pre x post e a ha u hu => ?_) (print_unglued hc hs hl' h) ugs_nil pls_nil) ?_
    · cases pre with
      | nil =>
        simp only [List.nil_append, List.cons.injEq] at e
        obtain ⟨_, rfl⟩ := e
        obtain ⟨w, hw, _⟩ := hu
        cases seqStarts_mem hw
      | cons y pre => simp at e
    · intro a ha
      rcases seqStops_inv ha with ⟨_, h⟩ | h
      · exact hs.step _ ht a (List.mem_append.mpr (.inl h))
      · exact (seqStops_nil h).elim
  | _, _, ht, .rightBin hl ho hr => by
    rename_i o l _ _ _
    have ho' := hc.part ht (.rightAssoc (.head _) : PartOf env o (.rightAssoc o l))
    have hl' := hc.part ht (.rightAssoc (.tail _ (.head _)) : PartOf env l (.rightAssoc o l))
    have hG : ∀ u ∈ [l, o, .rightAssoc o l], u ∈ G := by intro u hu; simp at hu; rcases hu with rfl | rfl | rfl <;> assumption
    have hlo := seqLoose_sound hc hG (hs.loose _ ht)
    refine ug_node (ugs_cons hlo (print_unglued hc hs hl' hl) (ugs_cons (seqLoose_tail hlo) (print_unglued hc hs ho' ho)
      (ugs_cons (seqLoose_tail (seqLoose_tail hlo)) (print_unglued hc hs ht hr) ugs_nil pls_nil) (pls_cons (print_lead hr) pls_nil))
      (pls_cons (print_lead ho) (pls_cons (print_lead hr) pls_nil))) ?_
    intro a ha
    rcases seqStops_inv ha with ⟨he, h⟩ | h
    · exact hs.step _ ht a (List.mem_append.mpr (.inl h))
    rcases seqStops_inv h with ⟨he, h⟩ | h
    · have hel : CanBeEmpty env l := by
        have := he (.rightAssoc o l) (by simp)
        cases this with | rightAssoc h => exact h
      refine hs.step _ ht a (List.mem_append.mpr (.inr ?_))
      rw [if_pos (hc.emp hel hl')]; exact h
    · rcases seqStops_inv h with ⟨_, h⟩ | h
      · exact h
      · exact (seqStops_nil h).elim
  | _, _, ht, .left h => by
    rename_i l r _
    have hl' := hc.part ht (.either (.head _) : PartOf env l (.either l r))
    intro out ho
    obtain ⟨a, b, h1, h2, rfl⟩ := toTokensL_cons ho
    simp only [Val.toTokensL, Option.some.injEq] at h2
    subst h2
    rw [List.append_nil]
    obtain ⟨h3, h4⟩ := print_unglued hc hs hl' h a h1
    exact ⟨h3, fun pre x sp e => hs.step _ ht x (List.mem_append.mpr (.inl (h4 pre x sp e)))⟩
  | _, _, ht, .right h => by
    rename_i l r _
    have hr' := hc.part ht (.either (.tail _ (.head _)) : PartOf env r (.either l r))
    intro out ho
    obtain ⟨a, b, h1, h2, rfl⟩ := toTokensL_cons ho
    simp only [Val.toTokensL, Option.some.injEq] at h2
    subst h2
    rw [List.append_nil]
    obtain ⟨h3, h4⟩ := print_unglued hc hs hr' h a h1
    exact ⟨h3, fun pre x sp e => hs.step _ ht x (List.mem_append.mpr (.inr (h4 pre x sp e)))⟩
theorem prints_unglued (hc : Covers env G c) (hs : Stops env G c stop) : ∀ {ts : List Ty} {vs : List Val}, (∀ t ∈ ts, t ∈ G) → SeqLoose env G stop ts → HasTys env ts vs →
    UGs env G stop ts vs
  | _, _, _, _, .nil => ugs_nil
  | _, _, hG, hl, .cons h hs' => ugs_cons hl (print_unglued hc hs (hG _ (by simp)) h)
      (prints_unglued hc hs (fun t ht => hG t (by simp [ht])) (seqLoose_tail hl) hs') (prints_lead hs')
end

/-! ### joins -/

/-- Where an operator ends, it does not matter whether it is joined to what follows. -/
theorem sameJoins_of_unglued {R : Char → Char → Prop} {a b : List TT} (h : Loosely a b) (hv : Visible a) (hu : Unglued R b) : SameJoins R a b := by
  have tail : ∀ {t : TT} {b : List TT}, Unglued R (t :: b) → Unglued R b := by
    intro t b hu c sp c' spc' sp' hs
    refine hu c sp c' spc' sp' (?_ : Segment _ (t :: b))
    cases hs with
    | @here x y => rw [show t :: (x ++ [TT.punct c .alone sp, .punct c' spc' sp'] ++ y) = (t :: x) ++ [TT.punct c .alone sp, .punct c' spc' sp'] ++ y by simp]; exact .here
    | @inside x d i s y hi => exact .inside (a := t :: x) hi
  induction h with
  | nil => exact .nil
  | ident _ ih => exact .ident (ih hv.tail (tail hu))
  | lit _ _ ih => exact .lit (ih hv.tail (tail hu))
  | punct _ ih => exact .punct (.inl rfl) (ih hv.tail (tail hu))
  | @unjoined c sp sp' a b _ hr ih =>
    refine .punct (.inr ?_) (ih hv.tail (tail hu))
    intro c2 spc2 sp2 rest e
    subst e
    have first : ∃ spc s b', b = .punct c2 spc s :: b' := by
      cases hr with
      | punct _ => exact ⟨_, _, _, rfl⟩
      | unjoined _ _ => exact ⟨_, _, _, rfl⟩
    obtain ⟨spc, s, b', rfl⟩ := first
    exact hu _ _ _ _ _ (show Segment _ ([] ++ [.punct c .alone sp', .punct c2 spc s] ++ b') from .here)
  | group _ _ _ ih1 ih2 =>
    refine .group (ih1 hv.inner fun c sp c' spc' sp' hs => hu _ _ _ _ _ (.inside (a := []) hs)) (ih2 hv.tail (tail hu))
  | invisible _ _ _ => exact absurd .head (hv _ _)

/-- What a value of a separable grammar prints has no operators that look like parts of longer ones. -/
theorem separable_unglued {n : Nat} (hj : separable env G n = true) {t : Ty} (ht : t ∈ G) {v : Val} (hv : HasTy env t v) {out : List TT}
    (ho : v.toTokens = some out) : Unglued (GluedIn env t) out := by
  unfold separable at hj
  simp only [List.all_eq_true, Bool.and_eq_true, List.contains_iff_mem] at hj
  have hc : Covers env G _ := fun t ht => (hj t ht).1.1
  have hs : Stops env G _ _ := ⟨fun t ht => (hj t ht).1.2, fun t ht => (hj t ht).2⟩
  have := (print_unglued hc hs ht hv out ho).1
  intro c sp c' spc' sp' hseg ⟨tok, h1, h2⟩
  refine this c sp c' spc' sp' hseg ?_
  have hm : ∀ {a b : Ty}, Chain (fun a b => PartOf env b a) a b → a ∈ G → b ∈ G := by
    intro a b hch
    induction hch with
    | one h => exact fun ha => hc.part ha h
    | more h _ ih => exact fun ha => ih (hc.part ha h)
  have hmem : Ty.leaf (.punct tok) ∈ G := by
    rcases h1 with h | h
    · rw [h]; exact ht
    · exact hm h ht
  exact List.any_eq_true.mpr ⟨_, hmem, sideBySide_of h2⟩

end

end Parsel
