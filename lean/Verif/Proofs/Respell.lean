import Verif.Proofs.Blind
import Verif.Proofs.Print
import Verif.Proofs.Where

/-! Printed tokens are a respelling of the tokens that have been read, and no parser tells respelled streams apart. -/

namespace Parsel
open Spec

section
variable [Ext]

/-! ### respelled streams are treated alike -/

theorem uncons_cons {t : TT} (h : ∀ inner sp, t ≠ .group .none inner sp) (ts : List TT) : uncons (t :: ts) = some (t, ts) :=
  (uncons_iff _ _ _).mpr (.here h)

theorem uncons_enter (inner : List TT) (sp : Span) (ts : List TT) : uncons (.group .none inner sp :: ts) = uncons (inner ++ ts) := by
  rw [uncons_append]; rfl

theorem Spec.Respelled.isEmpty {G : Char → Char → Prop} {a b : List TT} (h : Respelled G a b) : a.isEmpty = b.isEmpty := by
  induction h with
  | @invisible inner sp a b hne _ ih =>
    rw [← ih]
    cases inner with
    | nil => exact absurd rfl hne
    | cons => rfl
  | _ => rfl

theorem respelled_head {G : Char → Char → Prop} {a b : List TT} (h : Respelled G a b) : SameHead (Respelled G) (uncons a) (uncons b) := by
  induction h with
  | nil => exact .none
  | ident h _ => rw [uncons_cons (by simp), uncons_cons (by simp)]; exact .ident h
  | lit hl h _ => rw [uncons_cons (by simp), uncons_cons (by simp)]; exact .lit hl h
  | punct h _ => rw [uncons_cons (by simp), uncons_cons (by simp)]; exact .punct h
  | unjoined _ h _ => rw [uncons_cons (by simp), uncons_cons (by simp)]; exact .punct h
  | group hd hi h _ _ =>
    rw [uncons_cons (by intro i s h; cases h; exact hd rfl), uncons_cons (by intro i s h; cases h; exact hd rfl)]; exact .group hi h
  | invisible _ _ ih => rw [uncons_enter]; exact ih

theorem respelled_similar (G : Char → Char → Prop) : Similar (Respelled G) := ⟨fun h => h.isEmpty, respelled_head⟩

/-- A punctuation character: its join flag is the same unless it does not matter. -/
theorem respelled_punct {G : Char → Char → Prop} {a b : List TT} (h : Respelled G a b) {c : Char} {spc : Spacing} {sp : Span} {r : List TT}
    (hu : uncons a = some (.punct c spc sp, r)) : ∃ spc' sp' r', uncons b = some (.punct c spc' sp', r') ∧ Respelled G r r' ∧
      (spc = spc' ∨ spc = .joint ∧ spc' = .alone ∧ ∀ c' spc' sp'' rest, Next r (.punct c' spc' sp'') rest → ¬ G c c') := by
  induction h with
  | nil => cases hu
  | ident h _ => rw [uncons_cons (by simp)] at hu; simp at hu
  | lit hl h _ => rw [uncons_cons (by simp)] at hu; simp at hu
  | punct h _ =>
    rw [uncons_cons (by simp)] at hu
    simp only [Option.some.injEq, Prod.mk.injEq, TT.punct.injEq] at hu
    obtain ⟨⟨rfl, rfl, rfl⟩, rfl⟩ := hu
    exact ⟨_, _, _, uncons_cons (by simp) _, h, .inl rfl⟩
  | unjoined hn h _ =>
    rw [uncons_cons (by simp)] at hu
    simp only [Option.some.injEq, Prod.mk.injEq, TT.punct.injEq] at hu
    obtain ⟨⟨rfl, rfl, rfl⟩, rfl⟩ := hu
    exact ⟨_, _, _, uncons_cons (by simp) _, h, .inr ⟨rfl, rfl, hn⟩⟩
  | group hd hi h _ _ => rw [uncons_cons (by intro i s h; cases h; exact hd rfl)] at hu; simp at hu
  | invisible _ _ ih => rw [uncons_enter] at hu; exact ih hu

theorem respelled_alike {G : Char → Char → Prop} : ∀ {tok : Text}, (∀ c c', [c, c'] <:+: tok → G c c') → PunctAlike (Respelled G) tok
  | [], _, a, b, h => .inr ⟨[], [], a, b, rfl, rfl, rfl, h⟩
  | [c], _, a, b, h => by
    simp only [punctLoop]
    have hu := respelled_head h
    generalize uncons a = a at hu
    generalize uncons b = b at hu
    cases hu with
    | punct h1 =>
      simp only []
      split
      · exact .inr ⟨_, _, _, _, rfl, rfl, rfl, h1⟩
      · exact .inl ⟨rfl, rfl⟩
    | _ => exact .inl ⟨rfl, rfl⟩
  | c :: c2 :: cs, hG, a, b, h => by
    simp only [punctLoop]
    have hu := respelled_head h
    cases ha : uncons a with
    | none =>
      rw [ha] at hu
      cases hb : uncons b with
      | none => exact .inl ⟨rfl, rfl⟩
      | some y => rw [hb] at hu; cases hu
    | some x =>
      obtain ⟨t, rest⟩ := x
      cases t with
      | punct c' spc sp =>
        obtain ⟨spc', sp', rest', hb, h1, h2⟩ := respelled_punct h ha
        rw [hb]
        simp only []
        have ih := respelled_alike (tok := c2 :: cs) (fun x y hxy => hG x y (hxy.trans (List.suffix_cons _ _).isInfix)) _ _ h1
        rcases h2 with rfl | ⟨rfl, rfl, h2⟩
        · split
          · rcases ih with ⟨h2, h3⟩ | ⟨sps, sps', x, y, h2, h3, h4, h5⟩
            · rw [h2, h3]; exact .inl ⟨rfl, rfl⟩
            · rw [h2, h3]; exact .inr ⟨_, _, _, _, rfl, rfl, by simp [h4], h5⟩
          · exact .inl ⟨rfl, rfl⟩
        · refine .inl ⟨?_, by simp⟩
          split
          · rename_i hc
            obtain ⟨_, rfl, _⟩ := hc
            have hg : G c' c2 := hG _ _ ⟨[], cs, rfl⟩
            have : punctLoop (c2 :: cs) rest = none := by
              cases hr : uncons rest with
              | none => cases cs <;> simp [punctLoop, hr]
              | some y =>
                obtain ⟨t, rest2⟩ := y
                cases t with
                | punct c3 spc3 sp3 =>
                  have hne : c3 ≠ c2 := by
                    rintro rfl
                    exact h2 _ _ _ _ ((uncons_iff _ _ _).mp hr) hg
                  cases cs <;> simp [punctLoop, hr, hne]
                | _ => cases cs <;> simp [punctLoop, hr]
            rw [this]
          · rfl
      | _ =>
        rw [ha] at hu
        generalize uncons b = b at hu
        cases hu <;> exact .inl ⟨rfl, rfl⟩

omit [Ext] in
theorem within_closed {env : Env} {t : Ty} : ∀ u, Within env t u → ∀ w, PartOf env w u → Within env t w
  | u, .inl h, w, hw => by subst h; exact .inr (.one hw)
  | u, .inr h, w, hw => .inr (h.trans (.one hw))

/-- Every type parses respelled streams alike, if the pairs of characters in its operators are `Glued`. -/
theorem parse_respelled {env : Env} {t : Ty} (n : Nat) : Blind (Respelled (GluedIn env t)) Alike (parse env n t) := by
  refine parse_blind_within (respelled_similar _) env (G := Within env t) within_closed ?_ n t (.inl rfl)
  intro l hl
  cases l with
  | punct tok => exact respelled_alike fun c c' hc => ⟨tok, hl, hc⟩
  | _ => exact trivial

/-! ### what is printed is a respelling of what has been read -/

/-- Respelled, with no regard to joins. -/
abbrev Loosely : List TT → List TT → Prop := Respelled fun _ _ => False

theorem Spec.Respelled.append {a b a' b' : List TT} (h : Loosely a b) (h' : Loosely a' b') : Loosely (a ++ a') (b ++ b') := by
  induction h with
  | nil => exact h'
  | ident _ ih => exact .ident ih
  | lit hl _ ih => exact .lit hl ih
  | punct _ ih => exact .punct ih
  | unjoined _ _ ih => exact .unjoined (fun _ _ _ _ _ => id) ih
  | group hd hi _ _ ih => exact .group hd hi ih
  | invisible hne _ ih => exact .invisible hne (by rw [List.append_assoc] at ih; exact ih)

theorem Spec.Respelled.anyPunct {c : Char} {spc : Spacing} {sp sp' : Span} {a b : List TT} (h : Loosely a b) :
    Loosely (.punct c spc sp :: a) (.punct c .alone sp' :: b) := by
  cases spc with
  | alone => exact .punct h
  | joint => exact .unjoined (fun _ _ _ _ _ => id) h

omit [Ext] in
theorem Spec.Occurs.left {t : TT} {a b : List TT} (h : Occurs t a) : Occurs t (a ++ b) := by
  induction h with
  | head => exact .head
  | tail _ ih => exact .tail ih
  | inside h _ => exact .inside h

omit [Ext] in
theorem Spec.Occurs.right {t : TT} {a b : List TT} (h : Occurs t b) : Occurs t (a ++ b) := by
  induction a with
  | nil => exact h
  | cons x a ih => exact .tail ih

omit [Ext] in
theorem Spec.Segment.left {t a b : List TT} (h : Segment t a) : Segment t (a ++ b) := by
  cases h with
  | @here x y => rw [List.append_assoc]; exact .here
  | @inside x d i sp y h => rw [List.append_assoc]; exact .inside h

omit [Ext] in
theorem Spec.Segment.right {t a b : List TT} (h : Segment t b) : Segment t (a ++ b) := by
  cases h with
  | @here x y => rw [← List.append_assoc, ← List.append_assoc]; exact .here
  | @inside x d i sp y h => rw [← List.append_assoc]; exact .inside h

/-- Literals without signs, and no minus sign before a zero. -/
structure Fine (ts : List TT) : Prop where
  vis : Visible ts
  unsigned : ∀ r sp, Occurs (.lit r sp) ts → r.head? ≠ some '-'
  zero : ∀ spc sp r sp', Segment [.punct '-' spc sp, .lit r sp'] ts → ¬ IntLit r 0

omit [Ext] in
theorem Fine.left {a b : List TT} (h : Fine (a ++ b)) : Fine a := ⟨fun i sp ho => h.vis i sp ho.left, fun r sp ho => h.2 r sp ho.left, fun spc sp r sp' hs => h.3 spc sp r sp' hs.left⟩
omit [Ext] in
theorem Fine.right {a b : List TT} (h : Fine (a ++ b)) : Fine b := ⟨fun i sp ho => h.vis i sp ho.right, fun r sp ho => h.2 r sp ho.right, fun spc sp r sp' hs => h.3 spc sp r sp' hs.right⟩
omit [Ext] in
theorem Fine.inside {d : Delim} {sp : Span} {a b : List TT} (h : Fine (.group d a sp :: b)) : Fine a :=
  ⟨fun i sp ho => h.vis i sp (.inside ho), fun r sp ho => h.2 r sp (.inside ho), fun spc sp1 r sp' hs => h.3 spc sp1 r sp' (Segment.inside (a := []) hs)⟩

omit [Ext] in
theorem floatDigits_head {c : Char} {cs d : Text} (hc : c.isDigit = true) (h : readFloatDigits (c :: cs) = some d) : ∃ d', d = c :: d' := by
  unfold readFloatDigits at h
  split at h
  · rename_i heq; injection heq with heq _; subst heq; exact absurd hc (by decide)
  · dsimp only at h
    rw [if_pos hc] at h
    have hne : c ≠ '_' := by rintro rfl; exact absurd hc (by decide)
    rw [floatLoop, if_neg hne, if_pos hc] at h
    cases hf : floatLoop { dot := false, e := false, sign := false, exponent := false || false } cs with
    | none => rw [hf] at h; simp at h
    | some r =>
      rw [hf] at h
      simp only [Option.map_some] at h
      split at h
      · cases h
      · injection h with h; exact ⟨_, h.symm⟩

/-- The token of a float, without its sign. -/
theorem floatPrinted (laws : FloatLaws) (signs : SignLaws) {x : Ext.F} {sp : Span} {out : List TT} (ho : litToTokens (.float x) sp = some out) {neg : Bool} {d : Text}
    (hx : Ext.floatOf d = some x) (hd : d.head? = some '-' ↔ neg = true) : ∃ r d', (∃ c d'', d' = c :: d'' ∧ c.isDigit = true) ∧ r.head? ≠ some '-' ∧
      readLit r = some (.float d') ∧ Ext.floatOf ((if neg then ['-'] else []) ++ d') = some x ∧
      out = if neg then [.punct '-' .alone sp, .lit r sp] else [.lit r sp] := by
  have hfin : Ext.finite x = true := by
    cases hf : Ext.finite x with
    | true => rfl
    | false => simp [litToTokens, floatLiteral, hf] at ho
  obtain ⟨neg', c, a, b, ha, hb, ht, hf⟩ := floatLiteral_shape laws x hfin
  have hc : c.isDigit = true := ha c (by simp)
  have hne : c ≠ '-' := by rintro rfl; exact absurd hc (by decide)
  obtain ⟨hr1, hr2⟩ := readFloat_decimal ha hb
  have hnat := readNat_dot ha b
  have hs := signs.sign _ _ hx hfin
  rw [hd] at hs
  have ht' := ht
  unfold floatLiteral at ht'
  rw [if_pos hfin] at ht'
  obtain ⟨_, a0, _, ha0, _, _, hsh⟩ := laws.shape x hfin
  have hhead : (Ext.floatText x).head? = some '-' ↔ neg' = true := by
    injection ht' with ht'
    have e : ((if neg' = true then ['-'] else []) ++ (c :: a ++ '.' :: b)).head? = (Ext.floatText x).head? := by
      rw [← ht']
      split
      · rfl
      · have : Ext.floatText x ≠ [] := by
          rcases hsh with h | ⟨_, h⟩ <;> rw [h] <;> simp [ha0]
        cases hfx : Ext.floatText x with
        | nil => exact absurd hfx this
        | cons => rfl
    rw [← e]
    cases neg' with
    | true => simp
    | false => simp [hne]
  have hnn : neg' = neg := by
    cases neg <;> cases neg' <;> simp_all
  subst hnn
  refine ⟨c :: a ++ '.' :: b, c :: a ++ '.' :: b, ⟨c, _, rfl, hc⟩, by simp [hne], ?_, hf, ?_⟩
  · rw [List.cons_append] at hnat hr1 ⊢
    rw [readLit_digit hc, readIntDigits_digit hc, hnat, hr1]
    rfl
  · simp only [litToTokens, ht, Option.map_some, Option.some.injEq] at ho
    rw [← ho]
    cases neg' with
    | true => rfl
    | false => exact pushLiteral_plain (by simp [hne])

theorem litTokens_respelled (laws : FloatLaws) (signs : SignLaws) {ts out : List TT} {l : LitVal} {sp : Span} (h : LitTokens ts l sp)
    (ho : litToTokens l sp = some out) (hf : Fine ts) : Loosely ts out := by
  have other : ∀ {r : Text}, ts = [.lit r sp] → (∀ {out'}, LitTokens out' l sp → ∃ r', out' = [.lit r' sp] ∧ SameLit r r') → Loosely ts out := by
    intro r e hh
    obtain ⟨r', rfl, h2⟩ := hh (litTokens_printed laws ho)
    rw [e]; exact .lit h2 .nil
  cases h with
  | bool b => simp only [litToTokens, Option.some.injEq] at ho; subst ho; exact .ident .nil
  | uint hi =>
    rename_i n
    cases hi with
    | plain hn h2 =>
      rw [next_visible hf.vis hn]
      have e : pushLiteral (natText n) sp = [.lit (natText n) sp] := pushLiteral_plain (natText_head_ne_minus n)
      simp only [litToTokens, e, Option.some.injEq] at ho
      subst ho
      exact .lit (.int h2 (intLit_natText n)) .nil
  | int hi =>
    rename_i neg n
    cases hi with
    | plain hn h2 =>
      rw [next_visible hf.vis hn]
      have e : pushLiteral (intLiteral (signed false n)) sp = [.lit (natText n) sp] := pushLiteral_plain (natText_head_ne_minus n)
      simp only [litToTokens, e, Option.some.injEq] at ho
      subst ho
      exact .lit (.int h2 (intLit_natText n)) .nil
    | inside hn h2 =>
      rw [next_visible hf.vis hn] at hf
      exact absurd rfl (hf.unsigned _ _ .head)
    | minus hn1 hn2 h2 =>
      have e1 := next_visible hf.vis hn1
      have v2 : Visible _ := (e1 ▸ hf : Fine _).vis.tail
      have e2 := next_visible v2 hn2
      subst e2
      subst e1
      cases n with
      | zero => exact absurd h2 (hf.zero _ _ _ _ (Segment.here (a := []) (c := [])))
      | succ n =>
        have e : ∀ sp, pushLiteral (intLiteral (signed true (n + 1))) sp = [.punct '-' .alone sp, .lit (natText (n + 1)) sp] := fun _ => rfl
        simp only [litToTokens, e, Option.some.injEq] at ho
        subst ho
        exact .anyPunct (.lit (.int h2 (intLit_natText _)) .nil)
  | @float r _ d x hr hx =>
    have hm := hf.unsigned _ _ .head
    obtain ⟨h1, h2⟩ := readLit_some_float hr
    obtain ⟨c, cs, rfl, hc⟩ := readFloat_head hm h2
    obtain ⟨d, rfl⟩ := floatDigits_head hc h2
    obtain ⟨r', _, ⟨c', d', rfl, hc'⟩, h3, h4, h5, h6⟩ := floatPrinted laws signs ho (neg := false) hx (by simp; rintro rfl; exact absurd hc (by decide))
    rw [h6]
    have h7 := hx.trans h5.symm
    exact .lit (.float hm h3 hr h4 h7 ((signs.neg _ _ _ _ hc hc').mp h7)) .nil
  | @minusFloat spc sp1 r sp2 d x hn hr hx =>
    have hm := hf.unsigned _ _ (.tail .head)
    rw [readFloatDigits_minus hm] at hr
    obtain ⟨d, h2, rfl⟩ := Option.map_eq_some_iff.mp hr
    obtain ⟨c, cs, rfl, hc⟩ := readFloat_head hm h2
    obtain ⟨d, rfl⟩ := floatDigits_head hc h2
    obtain ⟨r', _, ⟨c', d', rfl, hc'⟩, h3, h4, h5, h6⟩ := floatPrinted laws signs ho (neg := true) hx (by simp)
    rw [h6]
    have h7 := hx.trans h5.symm
    have hnat : readNat (c :: cs) = none := by
      cases hn' : readNat (c :: cs) with
      | none => rfl
      | some n => exact absurd ((readNat_iff _ _).mp hn') (hn n)
    have h8 : readLit (c :: cs) = some (.float (c :: d)) := by
      rw [readLit_digit hc, readIntDigits_digit hc, hnat, h2]; rfl
    exact .anyPunct (.lit (.float hm h3 h8 h4 ((signs.neg _ _ _ _ hc hc').mpr h7) h7) .nil)
  | byte hr => exact other rfl fun h => by cases h with | byte h => exact ⟨_, rfl, .byte hr h⟩
  | char hr => exact other rfl fun h => by cases h with | char h => exact ⟨_, rfl, .char hr h⟩
  | str hr => exact other rfl fun h => by cases h with | str h => exact ⟨_, rfl, .str hr h⟩
  | byteStr hr => exact other rfl fun h => by cases h with | byteStr h => exact ⟨_, rfl, .byteStr hr h⟩

theorem punctRun_respelled {tok : Text} {sps : List Span} {ts : List TT} (h : PunctRun tok sps ts) : Loosely ts (punctTokens tok sps) := by
  induction h with
  | nil => exact .nil
  | last => exact .anyPunct .nil
  | @more c sp tok sps ts h hne ih =>
    cases h with
    | nil => exact absurd rfl hne
    | last => exact .punct ih
    | more h hne' => exact .punct ih

theorem leaf_respelled (laws : FloatLaws) (signs : SignLaws) {l : Leaf} {v : LeafVal} {ts out : List TT} (h : LeafReads l v ts)
    (ho : leafToTokens l v = some out) (hf : Fine ts) : Loosely ts out := by
  cases h with
  | unit hl => simp only [leafToTokens, Option.some.injEq] at ho; subst ho; exact .nil
  | ident hl => simp only [leafToTokens, Option.some.injEq] at ho; subst ho; exact .ident .nil
  | keyword =>
    simp only [leafToTokens] at ho
    split at ho
    · injection ho with ho; subst ho; exact .ident .nil
    · cases ho
  | kwToken => simp only [leafToTokens, Option.some.injEq] at ho; subst ho; exact .ident .nil
  | punct hp => simp only [leafToTokens, Option.some.injEq] at ho; subst ho; exact punctRun_respelled hp
  | lit hl => exact litTokens_respelled laws signs hl ho hf

mutual
theorem reads_respelled (laws : FloatLaws) (signs : SignLaws) : ∀ (v : Val) (ts out : List TT), Reads false v ts → v.toTokens = some out → Fine ts → Loosely ts out
  | .leaf l v, ts, out, h, ho, hf => by
    simp only [Reads] at h
    simp only [Val.toTokens] at ho
    exact leaf_respelled laws signs h.2 ho hf
  | .group d sp v, ts, out, h, ho, hf => by
    simp only [Reads] at h
    obtain ⟨a, b, i, rfl, hr, hl⟩ := h
    simp only [Bool.false_eq, Bool.or_eq_false_iff, Bool.not_eq_false', List.isEmpty_iff] at hl
    obtain ⟨rfl, rfl⟩ := hl
    simp only [Val.toTokens] at ho
    obtain ⟨o, h1, rfl⟩ := Option.map_eq_some_iff.mp ho
    rw [List.append_nil] at hf ⊢
    refine .group ?_ (reads_respelled laws signs v a o hr h1 hf.inside) .nil
    rintro rfl
    exact hf.vis _ _ .head
  | .node tag vs, ts, out, h, ho, hf => by
    simp only [Reads] at h
    simp only [Val.toTokens] at ho
    exact readsL_respelled laws signs vs ts out h ho hf
theorem readsL_respelled (laws : FloatLaws) (signs : SignLaws) : ∀ (vs : List Val) (ts out : List TT), ReadsL false vs ts → Val.toTokensL vs = some out →
    Fine ts → Loosely ts out
  | [], ts, out, h, ho, _ => by
    simp only [ReadsL] at h
    simp only [Val.toTokensL, Option.some.injEq] at ho
    rw [h.2, ← ho]; exact .nil
  | v :: vs, ts, out, h, ho, hf => by
    simp only [ReadsL] at h
    obtain ⟨a, b, i, j, rfl, h1, h2, hl⟩ := h
    simp only [Bool.false_eq, Bool.or_eq_false_iff] at hl
    obtain ⟨rfl, rfl⟩ := hl
    simp only [Val.toTokensL] at ho
    obtain ⟨o1, h3, h4⟩ := Option.bind_eq_some_iff.mp ho
    obtain ⟨o2, h5, rfl⟩ := Option.map_eq_some_iff.mp h4
    exact (reads_respelled laws signs v a o1 h1 h3 hf.left).append (readsL_respelled laws signs vs b o2 h2 h5 hf.right)
end

/-! ### invisible groups -/

omit [Ext] in
theorem occurs_append_or {t : TT} {a b : List TT} (h : Occurs t (a ++ b)) : Occurs t a ∨ Occurs t b := by
  induction a with
  | nil => exact .inr h
  | cons x a ih =>
    cases h with
    | head => exact .inl .head
    | tail h => exact (ih h).imp .tail id
    | inside h => exact .inl (.inside h)

omit [Ext] in
/-- What occurs in a dissolved stream. -/
theorem occurs_dissolve {t : TT} : ∀ (ts : List TT), Occurs t (dissolve ts) → ∃ t', Occurs t' ts ∧ dissolveT t' = [t] ∧ (∀ inner sp, t' ≠ .group .none inner sp)
  | [], h => by cases h
  | .group .none inner sp :: ts, h => by
    rcases occurs_append_or (show Occurs t (dissolve inner ++ dissolve ts) from h) with h | h
    · obtain ⟨t', h1, h2⟩ := occurs_dissolve inner h; exact ⟨t', .inside h1, h2⟩
    · obtain ⟨t', h1, h2⟩ := occurs_dissolve ts h; exact ⟨t', .tail h1, h2⟩
  | .group .paren inner sp :: ts, h => by
    cases (show Occurs t (.group .paren (dissolve inner) sp :: dissolve ts) from h) with
    | head => exact ⟨_, .head, rfl, by simp⟩
    | tail h => obtain ⟨t', h1, h2⟩ := occurs_dissolve ts h; exact ⟨t', .tail h1, h2⟩
    | inside h => obtain ⟨t', h1, h2⟩ := occurs_dissolve inner h; exact ⟨t', .inside h1, h2⟩
  | .group .bracket inner sp :: ts, h => by
    cases (show Occurs t (.group .bracket (dissolve inner) sp :: dissolve ts) from h) with
    | head => exact ⟨_, .head, rfl, by simp⟩
    | tail h => obtain ⟨t', h1, h2⟩ := occurs_dissolve ts h; exact ⟨t', .tail h1, h2⟩
    | inside h => obtain ⟨t', h1, h2⟩ := occurs_dissolve inner h; exact ⟨t', .inside h1, h2⟩
  | .group .brace inner sp :: ts, h => by
    cases (show Occurs t (.group .brace (dissolve inner) sp :: dissolve ts) from h) with
    | head => exact ⟨_, .head, rfl, by simp⟩
    | tail h => obtain ⟨t', h1, h2⟩ := occurs_dissolve ts h; exact ⟨t', .tail h1, h2⟩
    | inside h => obtain ⟨t', h1, h2⟩ := occurs_dissolve inner h; exact ⟨t', .inside h1, h2⟩
  | .ident x sp :: ts, h => by
    cases (show Occurs t (.ident x sp :: dissolve ts) from h) with
    | head => exact ⟨_, .head, rfl, by simp⟩
    | tail h => obtain ⟨t', h1, h2⟩ := occurs_dissolve ts h; exact ⟨t', .tail h1, h2⟩
  | .punct x c sp :: ts, h => by
    cases (show Occurs t (.punct x c sp :: dissolve ts) from h) with
    | head => exact ⟨_, .head, rfl, by simp⟩
    | tail h => obtain ⟨t', h1, h2⟩ := occurs_dissolve ts h; exact ⟨t', .tail h1, h2⟩
  | .lit x sp :: ts, h => by
    cases (show Occurs t (.lit x sp :: dissolve ts) from h) with
    | head => exact ⟨_, .head, rfl, by simp⟩
    | tail h => obtain ⟨t', h1, h2⟩ := occurs_dissolve ts h; exact ⟨t', .tail h1, h2⟩

omit [Ext] in
theorem dissolveT_lit {t : TT} {r : Text} {sp : Span} (h : dissolveT t = [.lit r sp]) (hn : ∀ inner sp, t ≠ .group .none inner sp) : t = .lit r sp := by
  cases t with
  | group d i s => cases d <;> simp_all [dissolveT]
  | _ => simp_all [dissolveT]

omit [Ext] in
theorem visible_dissolve (ts : List TT) : Visible (dissolve ts) := by
  intro inner sp h
  obtain ⟨t, _, h2, h3⟩ := occurs_dissolve ts h
  cases t with
  | group d i s => cases d <;> simp_all [dissolveT]
  | _ => simp_all [dissolveT]

omit [Ext] in
theorem fine_of_ordinary {ts : List TT} (h : Ordinary ts) (hz : NoMinusZero ts) : Fine (dissolve ts) := by
  refine ⟨visible_dissolve ts, ?_, hz⟩
  intro r sp ho
  obtain ⟨t, h1, h2, h3⟩ := occurs_dissolve ts ho
  rw [dissolveT_lit h2 h3] at h1
  exact h.unsigned r sp h1

/-- Where joins matter they are the same. -/
theorem respelled_of_joins {G : Char → Char → Prop} {a b : List TT} (h : Loosely a b) (hv : Visible a) (hj : SameJoins G a b) : Respelled G a b := by
  induction h with
  | nil => exact .nil
  | ident _ ih => cases hj with | ident hj => exact .ident (ih hv.tail hj)
  | lit hl _ ih => cases hj with | lit hj => exact .lit hl (ih hv.tail hj)
  | punct _ ih => cases hj with | punct _ hj => exact .punct (ih hv.tail hj)
  | unjoined _ _ ih =>
    cases hj with
    | punct hc hj =>
      refine .unjoined ?_ (ih hv.tail hj)
      intro c' spc' sp'' rest hn
      rcases hc with hc | hc
      · cases hc
      · exact hc _ _ _ _ (next_visible hv.tail hn)
  | group hd _ _ ih1 ih2 => cases hj with | group h1 h2 => exact .group hd (ih1 hv.inner h1) (ih2 hv.tail h2)
  | invisible _ _ _ => exact absurd .head (hv _ _)

omit [Ext] in
theorem next_dissolve_punct {a rest : List TT} {c : Char} {spc : Spacing} {sp : Span} (h : Next a (.punct c spc sp) rest) :
    Next (dissolve a) (.punct c spc sp) (dissolve rest) := by
  rw [dissolve_next h]; exact .here (by simp)

omit [Ext] in
theorem sizeOf_append_lt (a b : List TT) : sizeOf (a ++ b) < sizeOf a + sizeOf b := by
  induction a with
  | nil => simp
  | cons x xs ih => simp only [List.cons_append, List.cons.sizeOf_spec]; omega

/-- Invisible groups that are not empty make no difference. -/
theorem respelled_undissolve {G : Char → Char → Prop} : ∀ (n : Nat) (ts b : List TT), sizeOf ts < n → (∀ inner sp, Occurs (.group .none inner sp) ts → dissolve inner ≠ []) →
    Respelled G (dissolve ts) b → Respelled G ts b := by
  intro n
  induction n with
  | zero => intro ts b hn; omega
  | succ n ih =>
    intro ts b hn hne h
    cases ts with
    | nil => exact h
    | cons t ts =>
      have hne' : ∀ inner sp, Occurs (.group .none inner sp) ts → dissolve inner ≠ [] := fun i s ho => hne i s (.tail ho)
      have hlt : sizeOf ts < n := by simp only [List.cons.sizeOf_spec] at hn; omega
      cases t with
      | ident x sp =>
        replace h : Respelled G (.ident x sp :: dissolve ts) b := h
        cases h with
        | ident h => exact .ident (ih _ _ hlt hne' h)
      | lit x sp =>
        replace h : Respelled G (.lit x sp :: dissolve ts) b := h
        cases h with
        | lit hl h => exact .lit hl (ih _ _ hlt hne' h)
      | punct c spc sp =>
        replace h : Respelled G (.punct c spc sp :: dissolve ts) b := h
        cases h with
        | punct h => exact .punct (ih _ _ hlt hne' h)
        | unjoined hc h => exact .unjoined (fun _ _ _ _ hn => hc _ _ _ _ (next_dissolve_punct hn)) (ih _ _ hlt hne' h)
      | group d inner sp =>
        have hlt2 : sizeOf inner < n := by simp only [List.cons.sizeOf_spec, TT.group.sizeOf_spec] at hn; omega
        have hi : ∀ inner' sp, Occurs (.group .none inner' sp) inner → dissolve inner' ≠ [] := fun i s ho => hne i s (.inside ho)
        by_cases hd : d = .none
        · subst hd
          refine .invisible (hne _ _ .head) (ih _ _ ?_ ?_ ?_)
          · have := sizeOf_append_lt inner ts
            simp only [List.cons.sizeOf_spec, TT.group.sizeOf_spec] at hn
            omega
          · intro i s ho
            rcases occurs_append_or ho with ho | ho
            · exact hi i s ho
            · exact hne' i s ho
          · rw [dissolve_append]; exact h
        · have e : dissolve (.group d inner sp :: ts) = .group d (dissolve inner) sp :: dissolve ts := by
            cases d with
            | none => exact absurd rfl hd
            | _ => rfl
          rw [e] at h
          cases h with
          | group _ h1 h2 => exact .group hd (ih _ _ hlt2 hi h1) (ih _ _ hlt hne' h2)
          | invisible => exact absurd rfl hd

/-! ### locations -/

omit [Ext] in
theorem pushLiteral_form (r : Text) (sp : Span) : (∃ t, pushLiteral r sp = [t] ∧ ∀ c spc sp, t ≠ .punct c spc sp) ∨ ∃ c spc sp' t, pushLiteral r sp = [.punct c spc sp', t] := by
  unfold pushLiteral
  split
  · exact .inr ⟨_, _, _, _, rfl⟩
  · exact .inl ⟨_, rfl, by simp⟩

/-- The tokens of a printed literal: one, or a sign and another one. -/
theorem litToTokens_form {l : LitVal} {sp : Span} {o : List TT} (h : litToTokens l sp = some o) :
    (∃ t, o = [t] ∧ ∀ c spc sp, t ≠ .punct c spc sp) ∨ ∃ c spc sp' t, o = [.punct c spc sp', t] := by
  have ofMap : ∀ {r : Option Text}, (r.map fun r => pushLiteral r sp) = some o →
      (∃ t, o = [t] ∧ ∀ c spc sp, t ≠ .punct c spc sp) ∨ ∃ c spc sp' t, o = [.punct c spc sp', t] := by
    intro r h
    obtain ⟨r, _, rfl⟩ := Option.map_eq_some_iff.mp h
    exact pushLiteral_form r sp
  cases l with
  | bool b => simp only [litToTokens, Option.some.injEq] at h; subst h; exact .inl ⟨_, rfl, by simp⟩
  | byte b => exact ofMap h
  | float x => exact ofMap h
  | int v => simp only [litToTokens, Option.some.injEq] at h; subst h; exact pushLiteral_form _ _
  | uint v => simp only [litToTokens, Option.some.injEq] at h; subst h; exact pushLiteral_form _ _
  | char c => simp only [litToTokens, Option.some.injEq] at h; subst h; exact pushLiteral_form _ _
  | str t => simp only [litToTokens, Option.some.injEq] at h; subst h; exact pushLiteral_form _ _
  | byteStr t => simp only [litToTokens, Option.some.injEq] at h; subst h; exact pushLiteral_form _ _

theorem litTokens_form {l : LitVal} {sp : Span} {a : List TT} (hv : Visible a) (h : LitTokens a l sp) :
    (∃ t, a = [t] ∧ ∀ c spc sp, t ≠ .punct c spc sp) ∨ ∃ c spc sp' t, a = [.punct c spc sp', t] := by
  have int : ∀ {neg n}, IntAt a neg n sp [] → (∃ t, a = [t] ∧ ∀ c spc sp, t ≠ .punct c spc sp) ∨ ∃ c spc sp' t, a = [.punct c spc sp', t] := by
    intro neg n h
    cases h with
    | plain h1 _ => exact .inl ⟨_, next_visible hv h1, by simp⟩
    | minus h1 h2 _ =>
      have e := next_visible hv h1
      subst e
      rw [next_visible hv.tail h2]
      exact .inr ⟨_, _, _, _, rfl⟩
    | inside h1 _ => exact .inl ⟨_, next_visible hv h1, by simp⟩
  cases h with
  | int h => exact int h
  | uint h => exact int h
  | minusFloat _ _ _ => exact .inr ⟨_, _, _, _, rfl⟩
  | _ => exact .inl ⟨_, rfl, by simp⟩

theorem lit_same {l : LitVal} {sp sp' : Span} {a o k k' : List TT} (hv : Visible a) (h : LitTokens a l sp') (ho : litToTokens l sp = some o)
    (e : a ++ k' = o ++ k) : a = o ∧ sp' = sp := by
  have hl : a.length = o.length := by
    rcases litTokens_form hv h with ⟨t, rfl, ht⟩ | ⟨c, spc, s, t, rfl⟩ <;> rcases litToTokens_form ho with ⟨u, rfl, hu⟩ | ⟨c', spc', s', u, rfl⟩
    · rfl
    · simp only [List.cons_append, List.cons.injEq] at e; exact absurd e.1 (ht _ _ _)
    · simp only [List.cons_append, List.cons.injEq] at e; exact absurd e.1.symm (hu _ _ _)
    · rfl
  have hao := (List.append_inj e hl).1
  subst hao
  refine ⟨rfl, ?_⟩
  rcases litTokens_spans hv h with h1 | ⟨s, t, h1, rfl⟩ <;> rcases litToTokens_spans ho with h2 | h2 <;> rw [h1] at h2 <;> simp_all [join_self]

omit [Ext] in
theorem punctRun_length {tok : Text} {sps : List Span} {ts : List TT} (h : PunctRun tok sps ts) : ts.length = tok.length ∧ sps.length = tok.length := by
  induction h with
  | nil => exact ⟨rfl, rfl⟩
  | last => exact ⟨rfl, rfl⟩
  | more _ _ ih => simp [ih.1, ih.2]

theorem leaf_same {l : Leaf} {v w : LeafVal} {d a o k k' : List TT} (hr : LeafReads l v d) (hv : Visible a) (hal : LeafAlike v w) (ho : leafToTokens l v = some o) (h : LeafReads l w a)
    (e : a ++ k' = o ++ k) : a = o ∧ w = v := by
  cases hal with
  | unit =>
    cases h with
    | unit _ => simp only [leafToTokens, Option.some.injEq] at ho; subst ho; exact ⟨rfl, rfl⟩
  | ident =>
    cases h with
    | ident _ => simp only [leafToTokens, Option.some.injEq] at ho; subst ho; simp_all
  | lit =>
    cases h with
    | lit h =>
      simp only [leafToTokens] at ho
      obtain ⟨h1, rfl⟩ := lit_same hv h ho e
      exact ⟨h1, rfl⟩
  | @mark sps sps' hl =>
    cases h with
    | @keyword kw sp =>
      cases hr with
      | keyword =>
        simp only [leafToTokens] at ho
        split at ho
        · injection ho with ho; subst ho; simp_all
        · cases ho
    | kwToken => cases hr with | kwToken => simp only [leafToTokens, Option.some.injEq] at ho; subst ho; simp_all
    | punct hp =>
      cases hr with
      | punct hq =>
        simp only [leafToTokens, Option.some.injEq] at ho
        subst ho
        have e1 := (punctRun_spans hp).1
        have e2 := (punctRun_spans hq).2
        have hlen := congrArg List.length e2
        rw [List.length_map, (punctRun_length hq).2] at hlen
        have hao := (List.append_inj e (by rw [(punctRun_length hp).1, hlen])).1
        rw [← hao, e1] at e2
        exact ⟨hao, by rw [e2]⟩

mutual
/-- Reading what has been printed gives the same locations, too. -/
theorem val_same : ∀ {v w : Val} {d a o k k' : List TT}, Reads false v d → Visible a → Alike v w → v.toTokens = some o → Reads false w a → a ++ k' = o ++ k → a = o ∧ w = v
  | .leaf l v, _, d, a, o, k, k', hr, hv, .leaf hal, ho, h, e => by
    simp only [Reads] at h hr
    simp only [Val.toTokens] at ho
    obtain ⟨h1, rfl⟩ := leaf_same hr.2 hv hal ho h.2 e
    exact ⟨h1, rfl⟩
  | .group dl sp v, _, d, a, o, k, k', hr, hv, .group hal, ho, h, e => by
    simp only [Reads] at h hr
    obtain ⟨x, y, i, rfl, hw, hl⟩ := h
    simp only [Bool.false_eq, Bool.or_eq_false_iff, Bool.not_eq_false', List.isEmpty_iff] at hl
    obtain ⟨rfl, rfl⟩ := hl
    obtain ⟨x', y', i', rfl, hr', hl'⟩ := hr
    simp only [Bool.false_eq, Bool.or_eq_false_iff, Bool.not_eq_false', List.isEmpty_iff] at hl'
    obtain ⟨rfl, rfl⟩ := hl'
    simp only [Val.toTokens] at ho
    obtain ⟨q, h1, rfl⟩ := Option.map_eq_some_iff.mp ho
    simp only [List.append_nil] at e hv ⊢
    replace e : TT.group dl x _ :: k' = TT.group dl q sp :: k := e
    simp only [List.cons.injEq, TT.group.injEq, true_and] at e
    obtain ⟨⟨e1, e2⟩, _⟩ := e
    obtain ⟨h3, rfl⟩ := val_same (k := []) (k' := []) hr' hv.inner hal h1 hw (by rw [e1])
    rw [e1, e2]
    exact ⟨rfl, rfl⟩
  | .node tag vs, _, d, a, o, k, k', hr, hv, .node hal, ho, h, e => by
    simp only [Reads] at h hr
    simp only [Val.toTokens] at ho
    obtain ⟨h1, rfl⟩ := valL_same hr hv hal ho h e
    exact ⟨h1, rfl⟩
theorem valL_same : ∀ {vs ws : List Val} {d a o k k' : List TT}, ReadsL false vs d → Visible a → AlikeL vs ws → Val.toTokensL vs = some o → ReadsL false ws a →
    a ++ k' = o ++ k → a = o ∧ ws = vs
  | [], _, d, a, o, k, k', hr, hv, .nil, ho, h, e => by
    simp only [ReadsL] at h
    simp only [Val.toTokensL, Option.some.injEq] at ho
    rw [h.2, ← ho]; exact ⟨rfl, rfl⟩
  | v :: vs, _, d, a, o, k, k', hr, hv, .cons hal hals, ho, h, e => by
    simp only [ReadsL] at h hr
    obtain ⟨x, y, i, j, rfl, h1, h2, hl⟩ := h
    simp only [Bool.false_eq, Bool.or_eq_false_iff] at hl
    obtain ⟨rfl, rfl⟩ := hl
    obtain ⟨x', y', i', j', rfl, h1', h2', hl'⟩ := hr
    simp only [Bool.false_eq, Bool.or_eq_false_iff] at hl'
    obtain ⟨rfl, rfl⟩ := hl'
    simp only [Val.toTokensL] at ho
    obtain ⟨o1, h3, h4⟩ := Option.bind_eq_some_iff.mp ho
    obtain ⟨o2, h5, rfl⟩ := Option.map_eq_some_iff.mp h4
    rw [List.append_assoc, List.append_assoc] at e
    obtain ⟨rfl, rfl⟩ := val_same h1' hv.left hal h3 h1 e
    obtain ⟨rfl, rfl⟩ := valL_same h2' hv.right hals h5 h2 (List.append_cancel_left e)
    exact ⟨rfl, rfl⟩
end

/-- A respelled stream has no invisible groups. -/
theorem respelled_visible {G : Char → Char → Prop} {a b : List TT} (h : Respelled G a b) : Visible b := by
  induction h with
  | nil => intro i s ho; cases ho
  | ident _ ih => intro i s ho; cases ho with | tail ho => exact ih _ _ ho
  | lit _ _ ih => intro i s ho; cases ho with | tail ho => exact ih _ _ ho
  | punct _ ih => intro i s ho; cases ho with | tail ho => exact ih _ _ ho
  | unjoined _ _ ih => intro i s ho; cases ho with | tail ho => exact ih _ _ ho
  | group hd _ _ ih1 ih2 =>
    intro i s ho
    cases ho with
    | head => exact hd rfl
    | tail ho => exact ih2 _ _ ho
    | inside ho => exact ih1 _ _ ho
  | invisible _ _ ih => exact ih

/-- Without operators of several characters joins do not matter. -/
theorem sameJoins_of_none {G : Char → Char → Prop} (hG : ∀ c c', ¬ G c c') {a b : List TT} (h : Loosely a b) (hv : Visible a) : SameJoins G a b := by
  induction h with
  | nil => exact .nil
  | ident _ ih => exact .ident (ih hv.tail)
  | lit _ _ ih => exact .lit (ih hv.tail)
  | punct _ ih => exact .punct (.inl rfl) (ih hv.tail)
  | unjoined _ _ ih => exact .punct (.inr fun _ _ _ _ _ => hG _ _) (ih hv.tail)
  | group _ _ _ ih1 ih2 => exact .group (ih1 hv.inner) (ih2 hv.tail)
  | invisible _ _ _ => exact absurd .head (hv _ _)

end

end Parsel
