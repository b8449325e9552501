import Verif.Spec.Linear
import Verif.Proofs.LL1
import Verif.Proofs.Peg

/-! The checker for decisive grammars is sound. -/

namespace Parsel
open Spec

variable [Ext]

/-! ### leaves and groups -/

omit [Ext] in
theorem next_det {ts r1 r2 : List TT} {t1 t2 : TT} (h1 : Next ts t1 r1) (h2 : Next ts t2 r2) : t1 = t2 ∧ r1 = r2 := by
  have e1 := (uncons_iff _ _ _).mpr h1
  have e2 := (uncons_iff _ _ _).mpr h2
  rw [e1] at e2
  injection e2 with e2
  injection e2 with a b
  exact ⟨a, b⟩

omit [Ext] in
theorem next_ne {ts rest : List TT} {t : TT} (h : Next ts t rest) : ts ≠ [] := by
  rintro rfl; cases h

/-- What the input starts with if it starts with `u`. -/
inductive Front (ts : List TT) : Ty → Prop
  | word {u : Ty} {x : Text} {sp : Span} {rest : List TT} : Next ts (.ident x sp) rest → (words u).Has x → Front ts u
  | punct {a : Text} {c : Char} {spc : Spacing} {sp : Span} {sps : List Span} {rest r : List TT} : Next ts (.punct c spc sp) r → PunctAt a ts sps rest →
      Front ts (.leaf (.punct a))
  | minus {k : LitKind} {spc : Spacing} {sp1 sp2 : Span} {mid rest : List TT} {r : Text} : mayBeNegative k = true → Next ts (.punct '-' spc sp1) mid →
      Next mid (.lit r sp2) rest → Front ts (.leaf (.lit k))
  | lit {k : LitKind} {r : Text} {sp : Span} {rest : List TT} : Next ts (.lit r sp) rest → Front ts (.leaf (.lit k))
  | group {u : Ty} {d : Delim} {t : Ty} {inner : List TT} {sp : Span} {rest : List TT} : GroupTy u d t → Next ts (.group d inner sp) rest → Front ts u

theorem front_lit {k : LitKind} {ts : List TT} {v : LitVal} {sp : Span} {rest : List TT} (h : LitAt k ts v sp rest) : Front ts (.leaf (.lit k)) := by
  have ia : ∀ {neg n sp rest}, IntAt ts neg n sp rest → (neg = true → mayBeNegative k = true) → Front ts (.leaf (.lit k)) := by
    intro neg n sp rest h hk
    cases h with
    | plain h _ => exact .lit h
    | minus h h' _ => exact .minus (hk rfl) h h'
    | inside h _ => exact .lit h
  cases h with
  | @bool _ _ b _ _ hk h =>
    refine .word h ?_
    rcases hk with rfl | rfl <;> cases b <;> simp [words, Words.Has]
  | byte _ h _ => exact .lit h
  | int h _ => exact ia h fun _ => rfl
  | uint _ h _ => exact ia h (by simp)
  | negative h _ => exact ia h fun _ => rfl
  | float hk h _ =>
    cases h with
    | plain h _ => exact .lit h
    | minus h h' _ _ => exact .minus (by rcases hk with rfl | rfl <;> rfl) h h'
  | char _ h _ => exact .lit h
  | str _ h _ => exact .lit h
  | byteStr _ h _ => exact .lit h

theorem front_of {u : Ty} {ts : List TT} (hp : picky u = true) (he : u ≠ .leaf .eof) (h : Opens u ts) : Front ts u := by
  cases h with
  | leaf h =>
    cases h with
    | empty => simp [picky] at hp
    | eof => exact absurd rfl he
    | notEof _ => simp [picky] at hp
    | customIdent h hx => exact .word h hx
    | rustIdent h hx => exact .word h hx
    | keyword h => exact .word h (by simp [words, Words.Has])
    | kwToken h => exact .word h (by simp [words, Words.Has])
    | punct h =>
      cases h with
      | nil => simp [picky] at hp
      | last hc h => exact .punct h (.last hc h)
      | more hc ht h h' => exact .punct h (.more hc ht h h')
    | lit h => exact front_lit h
  | group hg h => exact .group hg h

omit [Ext] in
theorem punct_prefix {a : Text} {ts : List TT} {sps : List Span} {rest : List TT} (h : PunctAt a ts sps rest) :
    ∀ {b : Text} {sps' : List Span} {rest' : List TT}, PunctAt b ts sps' rest' → a.isPrefixOf b = true ∨ b.isPrefixOf a = true := by
  induction h with
  | nil => intro b _ _ _; exact .inl (by simp)
  | last hc h =>
    intro b _ _ h'
    cases h' with
    | nil => exact .inr (by simp)
    | last _ h' => have := (next_det h h').1; injection this with h1 _ _; subst h1; exact .inl (by simp)
    | more _ _ h' _ => have := (next_det h h').1; injection this with h1 _ _; subst h1; exact .inl (by simp [List.isPrefixOf])
  | more hc ht h _ ih =>
    intro b _ _ h'
    cases h' with
    | nil => exact .inr (by simp)
    | last _ h' => have := (next_det h h').1; injection this with h1 _ _; subst h1; exact .inr (by simp [List.isPrefixOf])
    | more _ _ h' hr =>
      obtain ⟨e, rfl⟩ := next_det h h'
      injection e with h1 _ _; subst h1
      simpa [List.isPrefixOf] using ih hr

/-- The class of a literal. -/
def synClass : SynLit → Option Nat
  | .byte _ => some 1
  | .int _ => some 2
  | .float _ => some 3
  | .char _ => some 4
  | .str _ => some 5
  | .byteStr _ => some 6
  | _ => none

/-- What decides about the class of a literal. -/
inductive LitFront (ts : List TT) (a : Nat) : Prop
  | word {x : Text} {sp : Span} {rest : List TT} : a = 0 → Next ts (.ident x sp) rest → LitFront ts a
  | lit {r : Text} {sp : Span} {rest : List TT} {q : SynLit} : Next ts (.lit r sp) rest → readLit r = some q → synClass q = some a → LitFront ts a
  | minusInt {spc : Spacing} {sp1 sp2 : Span} {mid rest : List TT} {r : Text} {n : Nat} : a = 2 → Next ts (.punct '-' spc sp1) mid →
      Next mid (.lit r sp2) rest → IntLit r n → LitFront ts a
  | minusFloat {spc : Spacing} {sp1 sp2 : Span} {mid rest : List TT} {r : Text} : a = 3 → Next ts (.punct '-' spc sp1) mid →
      Next mid (.lit r sp2) rest → (∀ n, ¬ IntLit r n) → LitFront ts a

theorem litFront_of {k : LitKind} {ts : List TT} {v : LitVal} {sp : Span} {rest : List TT} (h : LitAt k ts v sp rest) {a : Nat} (ha : litClass k = some a) :
    LitFront ts a := by
  have ia : ∀ {neg n sp rest}, IntAt ts neg n sp rest → litClass k = some 2 → LitFront ts a := by
    intro neg n sp rest h hk
    rw [ha] at hk; injection hk with hk
    subst hk
    cases h with
    | plain h hl => exact .lit h (readLit_int hl) rfl
    | minus h h' hl => exact .minusInt rfl h h' hl
    | inside h hl => exact .lit h (readLit_minus hl) rfl
  have any : ∀ {j : LitKind} {b : Nat}, k = j ∨ k = .any → litClass j = some b → a = b := by
    rintro j b (rfl | rfl) hb
    · rw [ha] at hb; injection hb
    · cases ha
  cases h with
  | bool hk h => exact .word (any hk rfl) h
  | byte hk h hr => exact .lit h hr (by rw [any hk rfl]; rfl)
  | int h _ => exact ia h rfl
  | uint hk h _ => exact ia h (by rw [ha, any hk rfl])
  | negative h _ => cases ha
  | float hk h _ =>
    cases h with
    | plain h hr => exact .lit h hr (by rw [any hk rfl]; rfl)
    | minus h h' hn _ => exact .minusFloat (any hk rfl) h h' hn
  | char hk h hr => exact .lit h hr (by rw [any hk rfl]; rfl)
  | str hk h hr => exact .lit h hr (by rw [any hk rfl]; rfl)
  | byteStr hk h hr => exact .lit h hr (by rw [any hk rfl]; rfl)

theorem litFront_det {ts : List TT} {a b : Nat} (h1 : LitFront ts a) (h2 : LitFront ts b) : a = b := by
  cases h1 with
  | word e1 n1 =>
    cases h2 with
    | word e2 n2 => rw [e1, e2]
    | lit n2 _ _ => cases (next_det n1 n2).1
    | minusInt _ n2 _ _ => cases (next_det n1 n2).1
    | minusFloat _ n2 _ _ => cases (next_det n1 n2).1
  | lit n1 r1 c1 =>
    cases h2 with
    | word e2 n2 => cases (next_det n1 n2).1
    | lit n2 r2 c2 =>
      have e := (next_det n1 n2).1
      injection e with e _; subst e
      rw [r1] at r2; injection r2 with r2; subst r2
      rw [c1] at c2; injection c2
    | minusInt _ n2 _ _ => cases (next_det n1 n2).1
    | minusFloat _ n2 _ _ => cases (next_det n1 n2).1
  | minusInt e1 n1 m1 i1 =>
    cases h2 with
    | word e2 n2 => cases (next_det n1 n2).1
    | lit n2 _ _ => cases (next_det n1 n2).1
    | minusInt e2 _ _ _ => rw [e1, e2]
    | minusFloat _ n2 m2 i2 =>
      obtain ⟨_, rfl⟩ := next_det n1 n2
      have e := (next_det m1 m2).1
      injection e with e _; subst e
      exact absurd i1 (i2 _)
  | minusFloat e1 n1 m1 i1 =>
    cases h2 with
    | word e2 n2 => cases (next_det n1 n2).1
    | lit n2 _ _ => cases (next_det n1 n2).1
    | minusInt _ n2 m2 i2 =>
      obtain ⟨_, rfl⟩ := next_det n1 n2
      have e := (next_det m1 m2).1
      injection e with e _; subst e
      exact absurd i2 (i1 _)
    | minusFloat e2 _ _ _ => rw [e1, e2]

omit [Ext] in
/-- An operator is not the minus sign of a number, unless it is just that. -/
theorem punct_minus {a : Text} {ts : List TT} {sps : List Span} {rest mid r2 : List TT} {spc : Spacing} {sp1 sp2 : Span} {r : Text}
    (h : PunctAt a ts sps rest) (ha : a ≠ []) (h1 : Next ts (.punct '-' spc sp1) mid) (h2 : Next mid (.lit r sp2) r2) : a = ['-'] := by
  cases h with
  | nil => exact absurd rfl ha
  | last _ h => have := (next_det h h1).1; injection this with e _ _; rw [e]
  | more _ ht h hr =>
    obtain ⟨e, rfl⟩ := next_det h h1
    cases hr with
    | nil => exact absurd rfl ht
    | last _ h => cases (next_det h h2).1
    | more _ _ h _ => cases (next_det h h2).1

theorem picky_pair {u w : Ty} {ts : List TT} (hu : picky u = true) (hw : picky w = true) (eu : u ≠ .leaf .eof) (ew : w ≠ .leaf .eof)
    (hwd : (words u).apart (words w) = true) (ho : disjointOther u w = true) (h1 : Opens u ts) (h2 : Opens w ts) : False := by
  have f1 := front_of hu eu h1
  have f2 := front_of hw ew h2
  have ll : ∀ {j k : LitKind}, u = .leaf (.lit j) → w = .leaf (.lit k) → False := by
    rintro j k rfl rfl
    cases h1 with
    | group hg _ => cases hg
    | leaf h1 =>
      cases h2 with
      | group hg _ => cases hg
      | leaf h2 =>
        cases h1 with
        | lit h1 =>
          cases h2 with
          | lit h2 =>
            simp only [disjointOther] at ho
            cases ha : litClass j with
            | none => rw [ha] at ho; cases ho
            | some a =>
              cases hb : litClass k with
              | none => rw [ha, hb] at ho; cases ho
              | some b =>
                rw [ha, hb] at ho
                have := litFront_det (litFront_of h1 ha) (litFront_of h2 hb)
                subst this
                simp at ho
  have pm : ∀ {a : Text} {k : LitKind} {spc : Spacing} {sp1 sp2 : Span} {mid r2 rest : List TT} {sps : List Span} {r : Text}, picky (.leaf (.punct a)) = true →
      (!(mayBeNegative k && a == ['-'])) = true → mayBeNegative k = true → PunctAt a ts sps rest → Next ts (.punct '-' spc sp1) mid → Next mid (.lit r sp2) r2 → False := by
    intro a k spc sp1 sp2 mid r2 rest sps r hp ho hk h h1 h2
    have := punct_minus h (by rintro rfl; simp [picky] at hp) h1 h2
    subst this
    rw [hk] at ho
    simp at ho
  cases f1 with
  | word n1 w1 =>
    cases f2 with
    | word n2 w2 =>
      have e := (next_det n1 n2).1
      injection e with e _; subst e
      exact words_apart hwd w2 w1
    | punct n2 _ => cases (next_det n1 n2).1
    | minus _ n2 _ => cases (next_det n1 n2).1
    | lit n2 => cases (next_det n1 n2).1
    | group _ n2 => cases (next_det n1 n2).1
  | punct n1 p1 =>
    cases f2 with
    | word n2 w2 => cases (next_det n1 n2).1
    | punct n2 p2 =>
      simp only [disjointOther, Bool.and_eq_true, Bool.not_eq_true'] at ho
      rcases punct_prefix p1 p2 with h | h
      · rw [ho.1] at h; cases h
      · rw [ho.2] at h; cases h
    | minus hk n2 m2 => exact pm hu ho hk p1 n2 m2
    | lit n2 => cases (next_det n1 n2).1
    | group _ n2 => cases (next_det n1 n2).1
  | minus hk n1 m1 =>
    cases f2 with
    | word n2 w2 => cases (next_det n1 n2).1
    | punct n2 p2 => exact pm hw ho hk p2 n1 m1
    | minus _ n2 _ => exact ll rfl rfl
    | lit n2 => exact ll rfl rfl
    | group _ n2 => cases (next_det n1 n2).1
  | lit n1 =>
    cases f2 with
    | word n2 w2 => cases (next_det n1 n2).1
    | punct n2 _ => cases (next_det n1 n2).1
    | minus _ n2 _ => exact ll rfl rfl
    | lit n2 => exact ll rfl rfl
    | group _ n2 => cases (next_det n1 n2).1
  | group g1 n1 =>
    cases f2 with
    | word n2 w2 => cases (next_det n1 n2).1
    | punct n2 _ => cases (next_det n1 n2).1
    | minus _ n2 _ => cases (next_det n1 n2).1
    | lit n2 => cases (next_det n1 n2).1
    | group g2 n2 =>
      have e := (next_det n1 n2).1
      injection e with e _ _; subst e
      cases g1 <;> cases g2 <;> simp [disjointOther] at ho

theorem opens_token {u : Ty} {ts : List TT} (hp : u = .leaf .notEof ∨ picky u = true) (he : u ≠ .leaf .eof) (h : Opens u ts) : ts ≠ [] := by
  rcases hp with rfl | hp
  · cases h with
    | leaf h => cases h with
      | notEof h => exact h
    | group hg _ => cases hg
  · have f := front_of hp he h
    clear h
    cases f with
    | word h _ => exact next_ne h
    | punct h _ => exact next_ne h
    | minus _ h _ => exact next_ne h
    | lit h => exact next_ne h
    | group _ h => exact next_ne h

theorem opens_eof {ts : List TT} (h : Opens (.leaf .eof) ts) : ts = [] := by
  cases h with
  | leaf h => cases h; rfl
  | group hg _ => cases hg

theorem disjoint_sound {u w : Ty} (h : disjoint u w = true) : NeverBoth u w := by
  intro ts h1 h2
  simp only [disjoint, Bool.or_eq_true, Bool.and_eq_true, beq_iff_eq, bne_iff_ne, ne_eq] at h
  rcases h with (⟨⟨rfl, hne⟩, hw⟩ | ⟨⟨rfl, hne⟩, hw⟩) | ⟨⟨⟨⟨⟨eu, ew⟩, pu⟩, pw⟩, hwd⟩, ho⟩
  · exact opens_token hw hne h2 (opens_eof h1)
  · exact opens_token hw hne h1 (opens_eof h2)
  · exact picky_pair pu pw eu ew hwd ho h1 h2

/-! ### grammars -/

section
variable {env : Env} {G : List Ty} {c : Tables}

theorem allDisjoint_sound {us ws : List Ty} (h : Tables.allDisjoint us ws = true) {u w : Ty} (hu : u ∈ us) (hw : w ∈ ws) : NeverBoth u w := by
  simp only [Tables.allDisjoint, List.all_eq_true] at h
  exact disjoint_sound (h u hu w hw)

theorem seqDisjoint_sound (hc : Covers env G c) : ∀ {ts : List Ty}, (∀ t ∈ ts, t ∈ G) → c.seqDisjoint ts = true → SeqDisjoint env ts
  | [], _, _ => fun pre t post hs => by cases pre <;> simp at hs
  | t :: ts, hG, h => by
    simp only [Tables.seqDisjoint, Bool.and_eq_true] at h
    intro pre x post hs u w hu hw
    cases pre with
    | nil =>
      simp only [List.nil_append, List.cons.injEq] at hs
      obtain ⟨rfl, rfl⟩ := hs
      exact allDisjoint_sound h.1 (hc.grab hu (hG t (by simp))) (hc.seqFirst (fun y hy => hG y (by simp [hy])) hw)
    | cons y pre =>
      simp only [List.cons_append, List.cons.injEq] at hs
      exact seqDisjoint_sound hc (fun y hy => hG y (by simp [hy])) h.2 pre x post hs.2 u w hu hw

theorem altDisjoint_sound (hc : Covers env G c) {t p : Ty} (ht : t ∈ G) (hp : p ∈ G) (h : c.altDisjoint t p = true) (n : Nat) :
    SeqDisjoint env (alternate t p n) := by
  simp only [Tables.altDisjoint, Bool.and_eq_true] at h
  intro pre x post hs u w hu hw
  rcases alternate_split hs with ⟨rfl, m, rfl⟩ | ⟨rfl, m, rfl⟩
  · exact allDisjoint_sound h.1 (hc.grab hu ht) (hc.seqFirst (by simp [ht, hp]) (alternate_lead hw))
  · exact allDisjoint_sound h.2 (hc.grab hu hp) (hc.seqFirst (by simp [ht, hp]) (alternate_lead hw))

theorem variantsDisjoint_sound (hc : Covers env G c) {v w : List Ty} : ∀ {vs before mid after : List (List Ty)},
    (∀ w ∈ vs, ∀ t ∈ w, t ∈ G) → c.variantsDisjoint vs = true → vs = before ++ v :: (mid ++ w :: after) →
    ∀ u b, SeqLead env v u → SeqLead env w b → NeverBoth u b
  | [], before, _, _, _, _, hs => by cases before <;> simp at hs
  | x :: vs, [], mid, after, hG, h, hs => by
    simp only [List.nil_append, List.cons.injEq] at hs
    obtain ⟨rfl, rfl⟩ := hs
    simp only [Tables.variantsDisjoint, Bool.and_eq_true, List.all_eq_true] at h
    exact fun u b hu hb => allDisjoint_sound (h.1 w (by simp)) (hc.seqFirst (hG x (by simp)) hu) (hc.seqFirst (hG w (by simp)) hb)
  | x :: vs, y :: before, mid, after, hG, h, hs => by
    simp only [List.cons_append, List.cons.injEq] at hs
    simp only [Tables.variantsDisjoint, Bool.and_eq_true] at h
    exact variantsDisjoint_sound hc (fun y hy => hG y (by simp [hy])) h.2 hs.2

theorem decisive_sound (hc : Covers env G c) {t : Ty} (ht : t ∈ G) (h : c.decisive env t = true) : Decisive env t := by
  cases t with
  | named x =>
    simp only [Tables.decisive] at h
    simp only [Decisive]
    split
    · rename_i fields hx
      rw [hx] at h
      exact seqDisjoint_sound hc (fun y hy => hc.part ht (.struct hx hy)) h
    · rename_i vs hx
      rw [hx] at h
      simp only [Bool.and_eq_true, List.all_eq_true] at h
      refine ⟨fun v hv => seqDisjoint_sound hc (fun y hy => hc.part ht (.enum hx hv hy)) (h.1 v hv), fun before v mid w after hs => ?_⟩
      refine variantsDisjoint_sound hc (v := fieldTypes v.fields) (w := fieldTypes w.fields) (before := before.map fun v => fieldTypes v.fields)
        (mid := mid.map fun v => fieldTypes v.fields) (after := after.map fun v => fieldTypes v.fields) ?_ h.2 (by simp [hs])
      intro z hz y hy
      obtain ⟨v', hv', rfl⟩ := List.mem_map.mp hz
      exact hc.part ht (.enum hx hv' hy)
  | maybe p t => exact seqDisjoint_sound hc (fun y hy => hc.part ht (.maybe hy)) h
  | punctuated t p => exact altDisjoint_sound hc (hc.part ht (.punctuated (by simp))) (hc.part ht (.punctuated (by simp))) h
  | separated t p => exact altDisjoint_sound hc (hc.part ht (.separated (by simp))) (hc.part ht (.separated (by simp))) h
  | any t => exact fun u b hu hb => allDisjoint_sound h (hc.grab hu (hc.part ht .any)) (hc.first (hc.part ht .any) hb)
  | leftAssoc o r => exact altDisjoint_sound hc (hc.part ht (.leftAssoc (by simp))) (hc.part ht (.leftAssoc (by simp))) h
  | rightAssoc o l => exact altDisjoint_sound hc (hc.part ht (.rightAssoc (by simp))) (hc.part ht (.rightAssoc (by simp))) h
  | either l r => exact fun u w hu hw => allDisjoint_sound h (hc.first (hc.part ht (.either (by simp))) hu) (hc.first (hc.part ht (.either (by simp))) hw)
  | _ => trivial

theorem ends_covers {n : Nat} (h : ends env G n = true) : Covers env G (tablesOf env G n) ∧ ∀ t ∈ G, (tablesOf env G n).rounds t = true := by
  simp only [ends, Tables.ends, List.all_eq_true, Bool.and_eq_true] at h
  exact ⟨fun t ht => (h t ht).1, fun t ht => (h t ht).2⟩

theorem decides_covers {n : Nat} (h : decides env G n = true) :
    Covers env G (tablesOf env G n) ∧ (∀ t ∈ G, (tablesOf env G n).rounds t = true) ∧ ∀ t ∈ G, (tablesOf env G n).decisive env t = true := by
  simp only [decides, Tables.decides, List.all_eq_true, Bool.and_eq_true] at h
  exact ⟨fun t ht => (h t ht).1.1, fun t ht => (h t ht).1.2, fun t ht => (h t ht).2⟩

theorem decisive_of_decides {n : Nat} (h : decides env G n = true) : DecisiveGrammar env G where
  closed _ ht _ hu := (decides_covers h).1.part ht hu
  noLeftRecursion _ ht hc := absurd ((decides_covers h).1.rank hc ht) (Nat.lt_irrefl _)
  rounds t ht := rounds_sound (decides_covers h).1 ht ((decides_covers h).2.1 t ht)
  decisive t ht := decisive_sound (decides_covers h).1 ht ((decides_covers h).2.2 t ht)

end

end Parsel
