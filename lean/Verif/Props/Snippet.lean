import Verif.Proofs.Snippet
import Verif.Props.Edit

/-! C87: the source text of a node, parsed on its own, is the node. -/

namespace Parsel
open Spec

section
variable [Ext]

/-- **C87.** In an LL(1) grammar with separable operators: the stretch of source text at which a node `w` of the parsed text is located, cut out and parsed on its own as the
node's type, gives the node again (up to locations). -/
theorem C87_snippet (laws : FloatLaws) (signs : SignLaws) {env : Env} {G : List Ty} {n : Nat} (hG : ll1 env G n = true) (hj : separable env G n = true) {t u : Ty}
    (hu : u ∈ G) (he : closesAtEnd env G n u = true) {src : Text} {ts : List TT} (hl : lex src = some ts) (hlay : Layout ts src) (hz : NoMinusZero ts) {v w : Val}
    (ha : AcceptsStr env t src v) (hw : Inside w v) (hwt : HasTy env u w) {out : List TT} (ho : w.toTokens = some out) (hne : out ≠ []) :
    ∃ mid w', sourceSubstring src (nodeSpan out) = some mid ∧ AcceptsStr env u mid w' ∧ Alike w w' := by
  obtain ⟨ts0, hl0, hacc, hr⟩ := acceptsStr_reads ha
  rw [hl] at hl0
  cases hl0
  have hvis := C60_visible hl
  have hwr := (lex_writable hl).1
  have hsv := inside_survives hw (accepted_survives hacc (lexed_ordinary hl).1 hz)
  obtain ⟨_, hat⟩ := lex_layout_at hlay hwr hl
  obtain ⟨pl, b, e, hrb, _⟩ := reads_replaced (inside_replaced hw) hvis hr
  subst e
  obtain ⟨bom, x, _, hs, hla⟩ := C60_lexed hl
  have hpl := placed_laid hla (src := src) (post := []) (by simpa using hs)
  have hseg := pl.segment b
  have hb := placed_segment hseg hpl
  have hvb : Visible b := Place.visible hvis
  have hm := reads_spans w false b out hvb hrb ho
  have hpw : (b.map TT.span).Pairwise SpanLe := by cases hb with | mk h _ _ => exact h
  obtain ⟨k1, k2⟩ := hm.keeps hpw
  have hbne : b ≠ [] := by
    rintro rfl
    exact hne (List.map_eq_nil_iff.mp hm.of_nil)
  obtain ⟨pre, mid, post, hed⟩ := edit_place hbne hat hwr
  have esp := hed.span
  rw [List.nil_append] at esp
  rw [esp] at k2
  have hsp : nodeSpan out = stretchSpan pre mid := nodeSpan_edges k1 k2
  have etext : src = pre ++ mid ++ post := by rw [hed.text]; simp
  have hq : NoQuotes (pl.fill b) := by
    refine reads_quiet hvis hr ?_
    obtain ⟨s', n, hn⟩ := accepts_parses hacc
    obtain ⟨rest, left, hm, _⟩ := (parse_peg env n t _).1 v s' hn
    refine matches_leaves (fun l ts v rest h => ?_) hm
    cases h with
    | punct h => exact punctAt_quote h
    | _ => trivial
  have hwb := Place.own hwr hq
  have hvl := visible_loose hvb
  obtain ⟨new, hnew, hshape⟩ := lex_layout hed.own hwb
  have hord : Ordinary (loose b) :=
    ⟨fun r sp ho => litText_unsigned ((writable_occurs hwb ho).2 r sp rfl), fun i sp ho => absurd ho (hvl i sp)⟩
  have hacc' := (C76_language laws signs hG hu he hj hord (noMinusZero_part hvis hvb hseg hz) (by rw [ho]; simp)).mpr
    ⟨hwt, hsv, by rw [dissolve_visible hvl]; exact reads_loose hvb hrb⟩
  obtain ⟨w', ⟨m, hm⟩, hal⟩ := C31_accepts hshape hacc'
  refine ⟨mid, w', ?_, ⟨m, ?_⟩, hal⟩
  · rw [hsp, etext]
    exact (C46_byte_range pre mid post).2
  · unfold parseStr
    simp only [hnew]
    exact hm

end


section
attribute [local instance] signExt

/-- The hypotheses are met: in `let x = y/**/+( 7 );` the summand `( 7 )` has the text `( 7 )`, and that text is an expression of the same content. -/
example : ∃ w', sourceSubstring editSrc (spAt 14 19) = some "( 7 )".toList ∧ AcceptsStr demoEnv (.named "Expr".toList) "( 7 )".toList w' ∧ Alike editOld w' := by
  have ho : editOld.toTokens = some [.group .paren [.lit "7".toList (spAt 16 17)] (spAt 14 19)] := rfl
  have hw : Inside editOld (editVal editOld) := .node (List.mem_cons_of_mem _ (List.mem_cons_of_mem _ (List.mem_cons_of_mem _ (List.mem_cons_self ..))))
    (.node (List.mem_cons_of_mem _ (List.mem_cons_of_mem _ (List.mem_cons_self ..))) .here)
  have hwt : HasTy demoEnv (.named "Expr".toList) editOld := (C76_sound (ts := [.group .paren [.lit "7".toList (spAt 16 17)] (spAt 14 19)]) ⟨20, rfl⟩).1
  obtain ⟨mid, w', h1, h2, h3⟩ := C87_snippet signExt_laws signExt_signs demo_ll1.1 (by decide +kernel) (u := .named "Expr".toList) (by decide +kernel) (by decide +kernel)
    edit_lexed edit_laid (noMinusZero_of_B (by decide +kernel)) edit_accepts hw hwt ho (by simp)
  have e : sourceSubstring editSrc (spAt 14 19) = some "( 7 )".toList := by decide +kernel
  rw [show nodeSpan _ = spAt 14 19 from rfl, e] at h1
  cases h1
  exact ⟨w', e, h2, h3⟩

/-! ### what cannot be left out -/

/-- `struct S { item: E, semi: Token![;] }`, `enum E { Long(Ident, NotEof), Short(Ident) }`. -/
def peekEnv : Env := fun x =>
  if x = "S".toList then .struct (.named [("item".toList, fld (.named "E".toList)), ("semi".toList, fld (.leaf (.punct ";".toList)))])
  else if x = "E".toList then .enum [⟨"Long".toList, .unnamed [fld (.leaf (.customIdent [])), fld (.leaf .notEof)]⟩, ⟨"Short".toList, .unnamed [fld (.leaf (.customIdent []))]⟩]
  else .enum []

/-- The node `a` of `a;`: a `Long`, because something follows. -/
def peekLong : Val :=
  .node (.ctor "E".toList "Long".toList) [.leaf (.customIdent []) (.ident "a".toList (spAt 0 1)), .leaf .notEof .unit]

theorem acceptsStr_unique {env : Env} {t : Ty} {src : Text} {v w : Val} (hv : AcceptsStr env t src v) (hw : AcceptsStr env t src w) : v = w := by
  obtain ⟨n, hv⟩ := hv
  obtain ⟨m, hw⟩ := hw
  unfold parseStr at hv hw
  cases hl : lex src with
  | none => rw [hl] at hv; cases hv
  | some ts =>
    simp only [hl] at hv hw
    have e1 : parse env n t ⟨ts, .callSite, none⟩ = parse env m t ⟨ts, .callSite, none⟩ := by
      refine parse_unique ?_ ?_
      · intro ho; unfold parse2 at hv; rw [ho] at hv; cases hv
      · intro ho; unfold parse2 at hw; rw [ho] at hw; cases hw
    unfold parse2 at hv hw
    rw [e1, hw] at hv
    cases hv
    rfl

/-- Without one-token lookahead a node may depend on what comes after it: in `a;` the item is a `Long`, and its text `a`, on its own, is a `Short`. -/
theorem C87_ll1_needed : ∃ v ts out,
    ll1 peekEnv (typesFrom peekEnv 8 [.named "S".toList]) 8 = false ∧ lex "a;".toList = some ts ∧ Layout ts "a;".toList ∧ AcceptsStr peekEnv (.named "S".toList) "a;".toList v ∧
    Inside peekLong v ∧ HasTy peekEnv (.named "E".toList) peekLong ∧ peekLong.toTokens = some out ∧ sourceSubstring "a;".toList (nodeSpan out) = some "a".toList ∧
    (∃ w', AcceptsStr peekEnv (.named "E".toList) "a".toList w') ∧ ¬ ∃ w', AcceptsStr peekEnv (.named "E".toList) "a".toList w' ∧ Alike peekLong w' := by
  have hv : AcceptsStr peekEnv (.named "E".toList) "a".toList (.node (.ctor "E".toList "Short".toList) [.leaf (.customIdent []) (.ident "a".toList (spAt 0 1))]) := ⟨20, rfl⟩
  refine ⟨.node (.ctor "S".toList "S".toList) [peekLong, .leaf (.punct ";".toList) (.mark [spAt 1 2])], [.ident "a".toList (spAt 0 1), .punct ';' .alone (spAt 1 2)], _,
    by decide +kernel, rfl, .ident .nil (parts_cons (by decide) (by decide) (by decide)) (.alone .nil (.inl (by simp)) (.nil .nil)), ⟨20, rfl⟩,
    .node (List.mem_cons_self ..) .here, ?_, rfl, by decide +kernel, ⟨_, hv⟩, ?_⟩
  · exact .enum (w := ⟨"Long".toList, .unnamed [fld (.leaf (.customIdent [])), fld (.leaf .notEof)]⟩) rfl (List.mem_cons_self ..)
      (.cons (.leaf (.customIdent (List.not_mem_nil))) (.cons (.leaf .notEof) .nil))
  · rintro ⟨w', h, hal⟩
    have e := acceptsStr_unique h hv
    subst e
    cases hal

end

end Parsel
