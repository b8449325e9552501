import Verif.Proofs.LoneText
import Verif.Proofs.Peg
import Verif.Proofs.Where
import Verif.Spec.Written

/-! Texts of one operator. -/

namespace Parsel

open Spec

/-- The tokens of an operator. -/
inductive OpTokens : Text → List Span → List TT → Prop
  | last {c spc sp} : c ≠ '\'' → OpTokens [c] [sp] [.punct c spc sp]
  | more {c sp tok sps ts} : c ≠ '\'' → tok ≠ [] → OpTokens tok sps ts → OpTokens (c :: tok) (sp :: sps) (.punct c .joint sp :: ts)

theorem opTokens_iff {tok : Text} (hne : tok ≠ []) {sps : List Span} {ts : List TT} (hv : Visible ts) : PunctAt tok ts sps [] ↔ OpTokens tok sps ts := by
  constructor
  · intro h
    generalize hr : ([] : List TT) = rest at h
    induction h with
    | nil => exact absurd rfl hne
    | last hc hn =>
      subst hr
      rw [next_visible hv hn]
      exact .last hc
    | more hc ht hn _ ih =>
      have e := next_visible hv hn
      subst e
      exact .more hc ht (ih ht (fun i sp ho => hv i sp (.tail ho)) hr)
  · intro h
    clear hne
    induction h with
    | last hc => exact .last hc (next_cons (by simp) _)
    | more hc ht _ ih => exact .more hc ht (next_cons (by simp) _) (ih (fun i sp ho => hv i sp (.tail ho)))

theorem opTokens_no_group {tok : Text} {sps : List Span} {ts : List TT} (h : OpTokens tok sps ts) : ∀ d inner sp, .group d inner sp ∉ ts := by
  induction h with
  | last => intro d inner sp hm; simp at hm
  | more _ _ _ ih => intro d inner sp hm; simp at hm; exact ih d inner sp hm

/-- There is no comment inside of the text. -/
theorem uncommented_cons {c : Char} {tok e : Text} (h : Uncommented (c :: tok) e) : NoComment (c :: (tok ++ e)) ∧ Uncommented tok e :=
  ⟨h [] (c :: tok) rfl (by simp), fun a b hab hb => h (c :: a) b (by rw [hab]; rfl) hb⟩

theorem lexPunct_joint_iff {c : Char} (hq : c ≠ '\'') {s rest : Text} {spc : Spacing} (h : lexPunct s = some (c, spc, rest)) :
    s = c :: rest ∧ c ∈ punctChars ∧ NoComment s ∧ (spc = .joint ↔ (punctChar rest).isSome = true) := by
  have hp := lexPunct_eq h
  obtain ⟨h1, h2, h3, h4⟩ := punctChar_eq hp
  refine ⟨h1, h2, ⟨h3, h4⟩, ?_⟩
  unfold lexPunct at h
  rw [hp] at h
  simp only [Option.bind_some, if_neg hq, Option.some.injEq, Prod.mk.injEq, true_and, and_true] at h
  subst h
  split <;> simp_all

theorem lexLeaf_punct {c : Char} (h : c ∈ punctChars) (hq : c ≠ '\'') {k : Text} (hn : NoComment (c :: k)) :
    lexLeaf (c :: k) = some (.punct c (if (punctChar k).isSome then .joint else .alone), k) ∧ TokStart (c :: k) := by
  refine ⟨?_, ⟨fun d hd => ?_, hn⟩⟩
  · unfold lexLeaf
    rw [lexLiteral_punct h hq]
    have : lexPunct (c :: k) = some (c, (if (punctChar k).isSome then .joint else .alone), k) := by
      unfold lexPunct
      rw [punctChar_some h hn]
      simp only [Option.bind_some, if_neg hq]
    rw [this]
  · simp at hd; rw [← hd]; exact not_white (punct_facts h).1

theorem ending_no_punct {e : Text} (h : Ending e) : punctChar e = none := by
  cases he : e with
  | nil => rfl
  | cons c s =>
    rcases ending_head h c (by rw [he]; rfl) with hw | ⟨rfl, hn⟩
    · rw [punctChar]
      split
      · rfl
      · rw [if_neg]
        intro hm
        have := not_white (punct_facts hm).1
        rw [hw] at this
        cases this
    · rw [punctChar]
      split
      · rfl
      · rename_i hh
        rw [he] at hn
        exfalso
        apply hn
        simpa [NoComment] using hh

variable [Ext]

theorem lone_op_reads {src : Text} : ∀ {tok : Text} {sps : List Span} {ts : List TT}, OpTokens tok sps ts → ∀ {p i : Text} {acc : List TT}, src = p ++ i →
    lexFrom src ⟨i, acc, []⟩ = .ok (acc ++ ts) → ∃ g e, i = g ++ (tok ++ e) ∧ Gap g ∧ Ending e ∧ CharSpans (p ++ g) tok sps ∧
      (∀ c ∈ tok, c ∈ punctChars ∧ c ≠ '\'') ∧ Uncommented tok e := by
  intro tok sps ts h
  have step : ∀ {c : Char} {spc : Spacing} {sp : Span} {ts : List TT} {p i : Text} {acc : List TT}, c ≠ '\'' →
      (∀ d inner sp', .group d inner sp' ∉ TT.punct c spc sp :: ts) → src = p ++ i → lexFrom src ⟨i, acc, []⟩ = .ok (acc ++ .punct c spc sp :: ts) →
      ∃ g rest, i = g ++ c :: rest ∧ Gap g ∧ c ∈ punctChars ∧ NoComment (c :: rest) ∧ (spc = .joint ↔ (punctChar rest).isSome = true) ∧
        sp = stretchSpan (p ++ g) [c] ∧ lexFrom src ⟨rest, acc ++ [.punct c spc sp], []⟩ = .ok (acc ++ [.punct c spc sp] ++ ts) := by
    intro c spc sp ts p i acc hq hng hsrc hl
    obtain ⟨g, l, rest, e1, hg, hlf, ht, hr⟩ := lone_leaf hng hl
    have hcut := (lexLeaf_cut hlf).2.2
    cases l with
    | punct c' spc' =>
      simp only [LexLeaf.tree, TT.punct.injEq] at ht
      obtain ⟨rfl, rfl, hsp⟩ := ht
      simp only [LexLeaf.text] at e1 hcut hsp
      obtain ⟨k1, k2, k3, k4⟩ := lexPunct_joint_iff hq hcut.2
      refine ⟨g, rest, e1, hg, k2, k3, k4, ?_, hr⟩
      have := posOf_span (src := src) (p := p ++ g) (x := [c]) (rest := rest) (k := []) (by rw [hsrc, e1]; simp)
      rw [hsp]
      simpa using this
    | lit r => cases ht
    | ident r => cases ht
  induction h with
  | @last c spc sp hq =>
    intro p i acc hsrc hl
    obtain ⟨g, rest, e1, hg, k2, k3, _, k5, hr⟩ := step hq (by intro _ _ _ hm; simp at hm) hsrc hl
    refine ⟨g, rest, e1, hg, lone_end.mp (by simpa using hr), ?_, by simpa using ⟨k2, hq⟩, ?_⟩
    · rw [k5]; exact .cons .nil
    · intro a b hab hb
      cases a with
      | nil => rw [List.nil_append] at hab; subst hab; exact k3
      | cons x a =>
        simp at hab
        exact absurd hab.2.2 hb
  | @more c sp tok sps ts hq ht hop ih =>
    intro p i acc hsrc hl
    obtain ⟨g, rest, e1, hg, k2, k3, k4, k5, hr⟩ := step hq (fun d inner sp' hm => opTokens_no_group (.more hq ht hop) d inner sp' hm) hsrc hl
    obtain ⟨g', e, e2, hg', he, hcs, hch, hun⟩ := ih (p := p ++ g ++ [c]) (by rw [hsrc, e1]; simp) hr
    have hp := k4.mp rfl
    have hg0 : g' = [] := by
      refine tight_gap (s := tok ++ e) hg' ?_
      rw [← e2]
      obtain ⟨q, hq'⟩ := Option.isSome_iff_exists.mp hp
      obtain ⟨j1, j2, j3, j4⟩ := punctChar_eq hq'
      refine ⟨fun d hd => ?_, j3, j4⟩
      rw [j1] at hd
      simp at hd
      rw [← hd]
      exact not_white (punct_facts j2).1
    subst hg0
    rw [List.nil_append] at e2
    rw [List.append_nil] at hcs
    subst e2
    refine ⟨g, e, e1, hg, he, ?_, ?_, ?_⟩
    · rw [k5]; exact .cons hcs
    · intro d hd
      rcases List.mem_cons.mp hd with rfl | hd
      · exact ⟨k2, hq⟩
      · exact hch d hd
    · intro a b hab hb
      cases a with
      | nil => rw [List.nil_append] at hab; subst hab; exact k3
      | cons x a =>
        simp at hab
        exact hun a b hab.2 hb

theorem lone_op_writes {src : Text} : ∀ {tok : Text} {sps : List Span} {q : Text}, CharSpans q tok sps → tok ≠ [] → ∀ {e : Text} {acc : List TT}, src = q ++ (tok ++ e) →
    Ending e → (∀ c ∈ tok, c ∈ punctChars ∧ c ≠ '\'') → Uncommented tok e →
    ∃ ts, OpTokens tok sps ts ∧ lexFrom src ⟨tok ++ e, acc, []⟩ = .ok (acc ++ ts) := by
  intro tok sps q h
  induction h with
  | nil => intro hne; exact absurd rfl hne
  | @cons q c tok sps hcs ih =>
    intro _ e acc hsrc he hch hun
    obtain ⟨hc, hq⟩ := hch c List.mem_cons_self
    obtain ⟨hn, hun'⟩ := uncommented_cons hun
    obtain ⟨k1, k2⟩ := lexLeaf_punct hc hq hn
    have hp := punct_facts hc
    have e1 := lexFrom_leaf_at (src := src) (acc := acc) (stk := []) k2 (fun d hd => by simp at hd; subst hd; exact ⟨.inr hp.2.2.1, hp.2.2.2.1⟩) k1
    have sp := posOf_span (src := src) (p := q) (x := [c]) (rest := tok ++ e) (k := []) (by rw [hsrc]; simp)
    simp only [List.append_nil, List.cons_append, List.nil_append] at sp
    rw [sp] at e1
    rw [List.cons_append]
    cases tok with
    | nil =>
      cases hcs
      rw [List.nil_append] at e1 hn ⊢
      refine ⟨[.punct c (if (punctChar e).isSome then .joint else .alone) (stretchSpan q [c])], .last hq, ?_⟩
      rw [e1]
      exact lone_end.mpr he
    | cons d tok =>
      obtain ⟨ts, ho, hl⟩ := ih (by simp) (e := e) (acc := acc ++ [.punct c .joint (stretchSpan q [c])]) (by rw [hsrc]; simp) he
        (fun d hd => hch d (List.mem_cons_of_mem _ hd)) hun'
      have hd := punctChar_some (hch d (by simp)).1 (uncommented_cons hun').1
      rw [← List.cons_append] at hd
      rw [hd] at e1
      refine ⟨.punct c .joint (stretchSpan q [c]) :: ts, .more hq (by simp) ho, ?_⟩
      rw [e1]
      simpa [LexLeaf.tree] using hl

end Parsel
