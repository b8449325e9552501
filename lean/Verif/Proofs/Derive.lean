import Verif.Spec.Derive
import Verif.Proofs.Decimal

/-! Helper lemmas about derived code. -/

namespace Parsel
open Spec

variable {τ ρ V X : Type}

theorem LineCol.lt_iff (a b : LineCol) :
    a.lt b = true ↔ a.line < b.line ∨ (a.line = b.line ∧ a.column < b.column) := by
  simp [LineCol.lt]

theorem LineCol.le_iff (a b : LineCol) :
    a.le b = true ↔ a.line < b.line ∨ (a.line = b.line ∧ a.column ≤ b.column) := by
  unfold LineCol.le
  rw [Bool.not_eq_true', ← Bool.not_eq_true, LineCol.lt_iff]
  omega

theorem LineCol.not_lt_iff (a b : LineCol) : ¬ (a.lt b = true) ↔ b.le a = true := by
  rw [LineCol.lt_iff, LineCol.le_iff]; omega

theorem LineCol.le_refl (a : LineCol) : a.le a = true := by rw [LineCol.le_iff]; omega

theorem LineCol.le_trans {a b c : LineCol} (h1 : a.le b = true) (h2 : b.le c = true) : a.le c = true := by
  rw [LineCol.le_iff] at *; omega

theorem LineCol.lt_of_le_of_lt {a b c : LineCol} (h1 : a.le b = true) (h2 : b.lt c = true) : a.lt c = true := by
  rw [LineCol.lt_iff] at *; rw [LineCol.le_iff] at *; omega

theorem LineCol.lt_of_lt_of_le {a b c : LineCol} (h1 : a.lt b = true) (h2 : b.le c = true) : a.lt c = true := by
  rw [LineCol.lt_iff] at *; rw [LineCol.le_iff] at *; omega

theorem LineCol.le_of_lt {a b : LineCol} (h1 : a.lt b = true) : a.le b = true := by
  rw [LineCol.lt_iff] at *; rw [LineCol.le_iff] at *; omega

theorem LineCol.not_lt_of_le {a b : LineCol} (h1 : a.le b = true) : ¬ b.lt a = true := by
  rw [LineCol.lt_iff]; rw [LineCol.le_iff] at *; omega



theorem unnamedInits_eq (en c : Text) (i : Nat) (fs : List (FieldDef τ)) :
    unnamedInits en c i fs
      = ((fs.map (·.ty)).zip ((List.range' i fs.length).map natText)).map fun p => ⟨p.1, en, c, p.2⟩ := by
  induction fs generalizing i with
  | nil => rfl
  | cons f fs ih => simp [unnamedInits, ih, List.range'_succ]

theorem expandFields_inits (en : Option Text) (c : Text) (fs : Fields τ) :
    (expandFields en c fs).inits
      = ((fieldTypes fs).zip (fieldLabels fs)).map fun p => ⟨p.1, en.getD [], c, p.2⟩ := by
  cases fs with
  | named fs =>
    simp only [expandFields, fieldTypes, Fields.defs, fieldLabels]
    induction fs with
    | nil => rfl
    | cons f fs ih => simp_all
  | unnamed fs =>
    simp [expandFields, fieldTypes, Fields.defs, fieldLabels, unnamedInits_eq, List.range_eq_range']
  | unit => rfl

theorem expandFields_ctor (en : Option Text) (c : Text) (fs : Fields τ) : (expandFields en c fs).ctor = c := by
  cases fs <;> rfl

theorem fieldLabels_length (fs : Fields τ) : (fieldLabels fs).length = (fieldTypes fs).length := by
  cases fs <;> simp [fieldLabels, fieldTypes, Fields.defs]

theorem evalInits_ok (P : τ → Parser V) (en c : Text) (ts : List τ) (ls : List Text) (hl : ls.length = ts.length)
    (s s' : PState) (vs : List V) :
    evalInits P ((ts.zip ls).map fun p => ⟨p.1, en, c, p.2⟩) s = .ok vs s' ↔ SeqOk P ts s vs s' := by
  induction ts generalizing ls s vs with
  | nil =>
    cases ls with
    | cons _ _ => simp at hl
    | nil =>
      simp only [List.zip_nil_left, List.map_nil, evalInits]
      constructor
      · intro h
        injection h with h1 h2
        subst h1; subst h2; exact .nil s
      · intro h; cases h; rfl
  | cons t ts ih =>
    cases ls with
    | nil => simp at hl
    | cons l ls =>
      simp only [List.zip_cons_cons, List.map_cons, evalInits, evalInit]
      have hl' : ls.length = ts.length := by simpa using hl
      cases hP : P t s with
      | err e => simp only [Res.mapErr, Res.bind]; constructor
                 · intro h; cases h
                 · intro h; cases h; simp_all
      | panic => simp only [Res.mapErr, Res.bind]; constructor
                 · intro h; cases h
                 · intro h; cases h; simp_all
      | oof => simp only [Res.mapErr, Res.bind]; constructor
               · intro h; cases h
               · intro h; cases h; simp_all
      | ok v s1 =>
        simp only [Res.mapErr, Res.bind]
        constructor
        · intro h
          cases hr : evalInits P ((ts.zip ls).map fun p => ⟨p.1, en, c, p.2⟩) s1 with
          | ok vs2 s2 =>
            rw [hr] at h
            simp only [Res.map] at h
            injection h with h1 h2
            subst h1; subst h2
            exact .cons hP ((ih ls hl' s1 vs2).1 hr)
          | err e => rw [hr] at h; cases h
          | panic => rw [hr] at h; cases h
          | oof => rw [hr] at h; cases h
        · intro h
          cases h with
          | cons h1 h2 =>
            rw [hP] at h1
            injection h1 with h3 h4
            subst h3; subst h4
            rw [(ih ls hl' _ _).2 h2]; rfl

theorem evalInits_err (P : τ → Parser V) (en c : Text) (ts : List τ) (ls : List Text) (hl : ls.length = ts.length)
    (s : PState) (e : Err) :
    evalInits P ((ts.zip ls).map fun p => ⟨p.1, en, c, p.2⟩) s = .err e
      ↔ ∃ i l e0, SeqErr P ts s i e0 ∧ ls[i]? = some l ∧ e = chainError e0 en c l := by
  induction ts generalizing ls s with
  | nil =>
    cases ls with
    | cons _ _ => simp at hl
    | nil =>
      simp only [List.zip_nil_left, List.map_nil, evalInits]
      constructor
      · intro h; cases h
      · rintro ⟨i, l, e0, h, _⟩; cases h
  | cons t ts ih =>
    cases ls with
    | nil => simp at hl
    | cons l ls =>
      simp only [List.zip_cons_cons, List.map_cons, evalInits, evalInit]
      have hl' : ls.length = ts.length := by simpa using hl
      cases hP : P t s with
      | err e1 =>
        simp only [Res.mapErr, Res.bind]
        constructor
        · intro h; injection h with h; exact ⟨0, l, e1, .here hP, rfl, h.symm⟩
        · rintro ⟨i, l', e0, h, hl2, he⟩
          cases h with
          | here h => rw [hP] at h; injection h with h; subst h; simp at hl2; subst hl2; rw [he]
          | there h _ => rw [hP] at h; cases h
      | panic =>
        simp only [Res.mapErr, Res.bind]
        constructor
        · intro h; cases h
        · rintro ⟨i, l', e0, h, hl2, he⟩; cases h <;> simp_all
      | oof =>
        simp only [Res.mapErr, Res.bind]
        constructor
        · intro h; cases h
        · rintro ⟨i, l', e0, h, hl2, he⟩; cases h <;> simp_all
      | ok v s1 =>
        simp only [Res.mapErr, Res.bind]
        have hmap : ∀ r : Res (List V), (r.map fun vs => v :: vs) = .err e ↔ r = .err e := by
          intro r; cases r <;> simp [Res.map]
        rw [hmap, ih ls hl']
        constructor
        · rintro ⟨i, l', e0, h, hl2, he⟩
          exact ⟨i + 1, l', e0, .there hP h, by simpa using hl2, he⟩
        · rintro ⟨i, l', e0, h, hl2, he⟩
          cases h with
          | here h => rw [hP] at h; cases h
          | there h h' =>
            rw [hP] at h; injection h with h1 h2; subst h1; subst h2
            exact ⟨_, l', e0, h', by simpa using hl2, he⟩

theorem evalCtor_ok (P : τ → Parser V) (en : Option Text) (c : Text) (fs : Fields τ) (s s' : PState) (n : Node V) :
    evalCtor P (expandFields en c fs) s = .ok n s' ↔ n.ctor = c ∧ SeqOk P (fieldTypes fs) s n.fields s' := by
  rw [← evalInits_ok P (en.getD []) c (fieldTypes fs) (fieldLabels fs) (fieldLabels_length fs)]
  rw [evalCtor, expandFields_inits, expandFields_ctor]
  generalize evalInits P _ s = r
  obtain ⟨nc, nf⟩ := n
  cases r <;> simp [Res.map]
  constructor
  · rintro ⟨⟨rfl, rfl⟩, rfl⟩; simp
  · rintro ⟨rfl, rfl, rfl⟩; simp

theorem evalCtor_err (P : τ → Parser V) (en : Option Text) (c : Text) (fs : Fields τ) (s : PState) (e : Err) :
    evalCtor P (expandFields en c fs) s = .err e
      ↔ ∃ i l e0, SeqErr P (fieldTypes fs) s i e0 ∧ (fieldLabels fs)[i]? = some l
          ∧ e = chainError e0 (en.getD []) c l := by
  rw [← evalInits_err P (en.getD []) c (fieldTypes fs) (fieldLabels fs) (fieldLabels_length fs)]
  rw [evalCtor, expandFields_inits]
  generalize evalInits P _ s = r
  cases r <;> simp [Res.map]

theorem chainError_msg (e : Err) (en c l : Text) : (chainError e en c l).msg = errorLine en c l ++ e.msg := by
  unfold chainError errorLine
  cases en <;> simp

theorem chainError_span (e : Err) (en c l : Text) : (chainError e en c l).span = e.span := rfl


theorem Spec.SeqErr.lt_length {P : τ → Parser V} {ts : List τ} {s : PState} {i : Nat} {e : Err} (h : SeqErr P ts s i e) :
    i < ts.length := by
  induction h with
  | here => simp
  | there _ _ ih => simpa using ih

theorem chainError_eq (e : Err) (en c l : Text) : chainError e en c l = ⟨e.span, errorLine en c l ++ e.msg⟩ := by
  rw [← chainError_msg]; rfl

theorem evalCtor_variantErr (P : τ → Parser V) (en : Text) (v : VariantDef τ) (s : PState) (e : Err) :
    evalCtor P (expandFields (some en) v.ident v.fields) s.fork = .err e ↔ VariantErr P en s v e := by
  rw [evalCtor_err]; simp only [chainError_eq]; rfl

theorem exists_variantErr {P : τ → Parser V} {en : Text} {s : PState} {v : VariantDef τ} {i : Nat} {e : Err}
    (h : SeqErr P (fieldTypes v.fields) s.fork i e) : ∃ e', VariantErr P en s v e' := by
  have h3 := h.lt_length
  rw [← fieldLabels_length] at h3
  exact ⟨_, i, _, e, h, List.getElem?_eq_getElem h3, rfl⟩

theorem evalVariants_ok (P : τ → Parser V) (en : Text) (vs : List (VariantDef τ)) (acc : Option Err)
    (s s' : PState) (n : Node V) :
    evalVariants P (vs.map fun v => expandFields (some en) v.ident v.fields) acc s = .ok n s' ↔
      ∃ pre v post f, vs = pre ++ v :: post ∧
        (∀ u ∈ pre, ∃ i e, SeqErr P (fieldTypes u.fields) s.fork i e) ∧
        n.ctor = v.ident ∧ SeqOk P (fieldTypes v.fields) s.fork n.fields f ∧ s' = s.advanceTo f := by
  induction vs generalizing acc with
  | nil => simp [evalVariants]
  | cons v vs ih =>
    -- the variant `v` decides unless it fails
    have key : ∀ {r : Res (Node V)}, evalCtor P (expandFields (some en) v.ident v.fields) s.fork = r →
        (∀ e, r ≠ .err e) → (∃ pre w post f, v :: vs = pre ++ w :: post ∧
        (∀ u ∈ pre, ∃ i e, SeqErr P (fieldTypes u.fields) s.fork i e) ∧
        n.ctor = w.ident ∧ SeqOk P (fieldTypes w.fields) s.fork n.fields f ∧ s' = s.advanceTo f) →
        ∃ f, r = .ok n f ∧ s' = s.advanceTo f := by
      rintro r hr hne ⟨pre, w, post, f, hvs, hpre, hn, hs, hs'⟩
      cases pre with
      | nil =>
        simp only [List.nil_append, List.cons.injEq] at hvs
        obtain ⟨rfl, rfl⟩ := hvs
        exact ⟨f, by rw [← hr]; exact (evalCtor_ok P (some en) v.ident v.fields s.fork f n).2 ⟨hn, hs⟩, hs'⟩
      | cons u pre =>
        simp only [List.cons_append, List.cons.injEq] at hvs
        obtain ⟨rfl, rfl⟩ := hvs
        obtain ⟨i, e, hse⟩ := hpre v (by simp)
        obtain ⟨e', he'⟩ := exists_variantErr (en := en) hse
        exact absurd (hr.symm.trans ((evalCtor_variantErr P en v s e').2 he')) (hne e')
    simp only [List.map_cons, evalVariants, tryParseVariant]
    cases hc : evalCtor P (expandFields (some en) v.ident v.fields) s.fork with
    | ok n1 f =>
      have hok := (evalCtor_ok P (some en) v.ident v.fields s.fork f n1).1 hc
      simp only
      constructor
      · intro h; injection h with h1 h2; subst h1; subst h2
        exact ⟨[], v, vs, f, rfl, by simp, hok.1, hok.2, rfl⟩
      · intro h
        obtain ⟨f', h1, h2⟩ := key hc (by simp) h
        injection h1 with h3 h4; subst h3; subst h4; rw [h2]
    | err e1 =>
      have herr := (evalCtor_err P (some en) v.ident v.fields s.fork e1).1 hc
      simp only
      rw [ih]
      constructor
      · rintro ⟨pre, w, post, f, rfl, hpre, h⟩
        refine ⟨v :: pre, w, post, f, rfl, ?_, h⟩
        intro u hu
        rcases List.mem_cons.1 hu with rfl | hu
        · obtain ⟨i, l, e0, h1, _⟩ := herr; exact ⟨i, e0, h1⟩
        · exact hpre u hu
      · rintro ⟨pre, w, post, f, hvs, hpre, hn, hs, h⟩
        cases pre with
        | nil =>
          simp only [List.nil_append, List.cons.injEq] at hvs
          obtain ⟨rfl, rfl⟩ := hvs
          have h2 := (evalCtor_ok P (some en) v.ident v.fields s.fork f n).2 ⟨hn, hs⟩
          rw [hc] at h2; cases h2
        | cons u pre =>
          simp only [List.cons_append, List.cons.injEq] at hvs
          obtain ⟨rfl, rfl⟩ := hvs
          exact ⟨pre, w, post, f, rfl, fun u hu => hpre u (by simp [hu]), hn, hs, h⟩
    | panic =>
      simp only
      constructor
      · intro h; cases h
      · intro h
        obtain ⟨f', h1, h2⟩ := key hc (by simp) h
        cases h1
    | oof =>
      simp only
      constructor
      · intro h; cases h
      · intro h
        obtain ⟨f', h1, h2⟩ := key hc (by simp) h
        cases h1

/-- Errors accumulated by the generated code of an enum. -/
def accErr (acc : Option Err) (e : Err) : Err :=
  match acc with
  | some a => maxByEnd a e
  | none => e

theorem evalVariants_err (P : τ → Parser V) (en : Text) (vs : List (VariantDef τ)) (acc : Option Err)
    (s : PState) (e : Err) :
    evalVariants P (vs.map fun v => expandFields (some en) v.ident v.fields) acc s = .err e ↔
      ∃ errs, Each (VariantErr P en s) vs errs ∧
        e = (errs.foldl (fun a x => some (accErr a x)) acc).getD
              (s.error "parsing an empty choice (enum) always fails".toList) := by
  induction vs generalizing acc with
  | nil =>
    simp only [List.map_nil, evalVariants, Res.err.injEq]
    constructor
    · intro h; exact ⟨[], .nil, h.symm⟩
    · rintro ⟨errs, h, he⟩; cases h; exact he.symm
  | cons v vs ih =>
    simp only [List.map_cons, evalVariants, tryParseVariant]
    have key : ∀ {r : Res (Node V)}, evalCtor P (expandFields (some en) v.ident v.fields) s.fork = r →
        (∃ errs, Each (VariantErr P en s) (v :: vs) errs ∧
        e = (errs.foldl (fun a x => some (accErr a x)) acc).getD
              (s.error "parsing an empty choice (enum) always fails".toList)) → ∃ e1 errs, r = .err e1 ∧ 
        Each (VariantErr P en s) vs errs ∧
        e = (errs.foldl (fun a x => some (accErr a x)) (some (accErr acc e1))).getD
              (s.error "parsing an empty choice (enum) always fails".toList) := by
      rintro r hr ⟨errs, h, he⟩
      cases h with
      | cons h1 h2 =>
        exact ⟨_, _, hr.symm.trans ((evalCtor_variantErr P en v s _).2 h1), h2, he⟩
    cases hc : evalCtor P (expandFields (some en) v.ident v.fields) s.fork with
    | ok n1 f =>
      simp only
      constructor
      · intro h; cases h
      · intro h; obtain ⟨e1, errs, h1, _⟩ := key hc h; cases h1
    | panic =>
      simp only
      constructor
      · intro h; cases h
      · intro h; obtain ⟨e1, errs, h1, _⟩ := key hc h; cases h1
    | oof =>
      simp only
      constructor
      · intro h; cases h
      · intro h; obtain ⟨e1, errs, h1, _⟩ := key hc h; cases h1
    | err e1 =>
      simp only
      have := ih (some (accErr acc e1))
      refine Iff.trans this ?_
      constructor
      · rintro ⟨errs, h1, h2⟩
        exact ⟨e1 :: errs, .cons ((evalCtor_variantErr P en v s _).1 hc) h1, h2⟩
      · intro h
        obtain ⟨e2, errs, h1, h2, h3⟩ := key hc h
        injection h1 with h1; subst h1
        exact ⟨errs, h2, h3⟩

theorem isLastFurthest_foldl (pre : List Err) (a : Err) (h : IsLastFurthest pre a) (errs : List Err) :
    ∃ e, errs.foldl (fun a x => some (accErr a x)) (some a) = some e ∧ IsLastFurthest (pre ++ errs) e := by
  induction errs generalizing pre a with
  | nil => exact ⟨a, rfl, by simpa using h⟩
  | cons x errs ih =>
    simp only [List.foldl_cons, accErr]
    have h2 : IsLastFurthest (pre ++ [x]) (maxByEnd a x) := by
      obtain ⟨p, q, rfl, hp, hq⟩ := h
      unfold maxByEnd
      split
      · rename_i hlt
        refine ⟨p, q ++ [x], by simp, hp, ?_⟩
        intro y hy
        rcases List.mem_append.1 hy with hy | hy
        · exact hq y hy
        · simp at hy; subst hy; exact hlt
      · rename_i hlt
        rw [LineCol.not_lt_iff] at hlt
        refine ⟨p ++ a :: q, [], by simp, ?_, by simp⟩
        intro y hy
        rcases List.mem_append.1 hy with hy | hy
        · exact LineCol.le_trans (hp y hy) hlt
        · rcases List.mem_cons.1 hy with rfl | hy
          · exact hlt
          · exact LineCol.le_trans (LineCol.le_of_lt (hq y hy)) hlt
    obtain ⟨e, he, hl⟩ := ih (pre ++ [x]) _ h2
    exact ⟨e, he, by simpa using hl⟩

theorem isLastFurthest_foldl_none (errs : List Err) (h : errs ≠ []) :
    ∃ e, errs.foldl (fun a x => some (accErr a x)) none = some e ∧ IsLastFurthest errs e := by
  cases errs with
  | nil => exact absurd rfl h
  | cons x errs =>
    have := isLastFurthest_foldl [x] x ⟨[], [], rfl, by simp, by simp⟩ errs
    simpa [accErr] using this

/-- There is only one last furthest error. -/
theorem Spec.IsLastFurthest.unique {errs : List Err} {e e' : Err} (h : IsLastFurthest errs e)
    (h' : IsLastFurthest errs e') : e = e' := by
  obtain ⟨p, q, hpq, hp, hq⟩ := h
  obtain ⟨p', q', hpq', hp', hq'⟩ := h'
  rw [hpq] at hpq'
  rcases List.append_eq_append_iff.1 hpq' with ⟨a, ha, hb⟩ | ⟨a, ha, hb⟩
  · cases a with
    | nil => simp at hb; exact hb.1
    | cons x a =>
      simp only [List.cons_append, List.cons.injEq] at hb
      obtain ⟨rfl, rfl⟩ := hb
      exact absurd (hq e' (by simp)) (LineCol.not_lt_of_le (hp' e (by simp [ha])))
  · cases a with
    | nil => simp at hb; exact hb.1.symm
    | cons x a =>
      simp only [List.cons_append, List.cons.injEq] at hb
      obtain ⟨rfl, rfl⟩ := hb
      exact absurd (hq' e (by simp)) (LineCol.not_lt_of_le (hp e' (by simp [ha])))


/-! ### where clause -/

theorem mem_dedup [DecidableEq τ] (t : τ) (l : List τ) : t ∈ dedup l ↔ t ∈ l := by
  induction l with
  | nil => simp [dedup]
  | cons u l ih =>
    simp only [dedup, List.mem_cons, List.mem_filter, ih, decide_eq_true_eq]
    by_cases h : t = u <;> simp [h]

theorem nodup_dedup [DecidableEq τ] (l : List τ) : (dedup l).Nodup := by
  induction l with
  | nil => simp [dedup]
  | cons u l ih =>
    simp only [dedup, List.nodup_cons]
    exact ⟨by simp, ih.filter _⟩

theorem collectTypes_ok {fs : List (FieldDef τ)} {ts : List τ} (h : collectTypes fs = .ok ts) :
    (∀ t, t ∈ ts ↔ ∃ f ∈ fs, f.ty = t ∧ f.attr = .ok false) ∧ ∀ f ∈ fs, ∃ b, f.attr = .ok b := by
  induction fs generalizing ts with
  | nil => simp [collectTypes] at h; subst h; simp
  | cons f fs ih =>
    simp only [collectTypes, fieldType] at h
    cases ha : f.attr with
    | error e => simp [ha] at h
    | ok b =>
      cases b with
      | true =>
        simp only [ha, if_true] at h
        obtain ⟨h1, h2⟩ := ih h
        constructor
        · intro t; rw [h1]; simp [ha]
        · intro g hg
          rcases List.mem_cons.1 hg with rfl | hg
          · exact ⟨_, ha⟩
          · exact h2 g hg
      | false =>
        simp only [ha] at h
        cases hc : collectTypes fs with
        | error e => simp [hc] at h
        | ok ts' =>
          simp [hc] at h
          subst h
          obtain ⟨h1, h2⟩ := ih hc
          constructor
          · intro t
            simp only [List.mem_cons, h1]
            constructor
            · rintro (rfl | ⟨g, hg, hh⟩)
              · exact ⟨f, .inl rfl, rfl, ha⟩
              · exact ⟨g, .inr hg, hh⟩
            · rintro ⟨g, rfl | hg, hh⟩
              · exact .inl hh.1.symm
              · exact .inr ⟨g, hg, hh⟩
          · intro g hg
            rcases List.mem_cons.1 hg with rfl | hg
            · exact ⟨_, ha⟩
            · exact h2 g hg

theorem collectTypes_err {fs : List (FieldDef τ)} {e : Text} (h : collectTypes fs = .error e) :
    ∃ f ∈ fs, f.attr = .error e := by
  induction fs with
  | nil => simp [collectTypes] at h
  | cons f fs ih =>
    simp only [collectTypes, fieldType] at h
    cases ha : f.attr with
    | error e' => simp [ha] at h; subst h; exact ⟨f, by simp, ha⟩
    | ok b =>
      cases b with
      | true =>
        simp only [ha, if_true] at h
        obtain ⟨g, hg, hh⟩ := ih h
        exact ⟨g, by simp [hg], hh⟩
      | false =>
        simp only [ha] at h
        cases hc : collectTypes fs with
        | ok e => simp [hc] at h
        | error e' =>
          simp [hc] at h; subst h
          obtain ⟨g, hg, hh⟩ := ih hc
          exact ⟨g, by simp [hg], hh⟩

/-- `add_bounds` in one formula. -/
theorem addBounds_eq [DecidableEq τ] (order : List τ → List τ) (item : DeriveInput τ ρ)
    (hu : item.data ≠ .union) :
    addBounds order item =
      (match collectTypes (allFields item) with
       | .error e => .error e
       | .ok ts => .ok (item.preds.map Pred.user ++ (order (dedup ts)).map Pred.bound)) := by
  obtain ⟨name, data, preds⟩ := item
  cases data with
  | union => exact absurd rfl hu
  | enum vs => rfl
  | struct fs => cases fs <;> rfl

/-! ### printing -/

theorem mapM_option_map {α β : Type} (f : α → Option β) (g : α → β) (l : List α) (h : ∀ a ∈ l, f a = some (g a)) :
    l.mapM f = some (l.map g) := by
  induction l with
  | nil => rfl
  | cons a l ih =>
    simp [List.mapM_cons, h a (by simp), ih (fun b hb => h b (by simp [hb]))]

theorem mapM_option_none {α β : Type} (f : α → Option β) (l : List α) (a : α) (ha : a ∈ l) (h : f a = none) :
    l.mapM f = none := by
  induction l with
  | nil => simp at ha
  | cons b l ih =>
    rcases List.mem_cons.1 ha with rfl | ha
    · simp [List.mapM_cons, h]
    · cases hb : f b <;> simp [List.mapM_cons, hb, ih ha]

theorem lookupVar_binds (binds : List Text) (k : Nat) (rest : List (Text × Binding)) (x : Text) :
    lookupVar x ((binds.zipIdx k).map (fun p => (p.1, Binding.field p.2)) ++ rest)
      = if identName x ∈ binds.map identName then some (.field (k + (binds.map identName).idxOf (identName x))) else lookupVar x rest := by
  induction binds generalizing k with
  | nil => simp
  | cons y binds ih =>
    simp only [List.zipIdx_cons, List.map_cons, List.cons_append, lookupVar]
    by_cases h : identName x = identName y
    · simp [h]
    · have h' : ¬ identName y = identName x := fun hh => h hh.symm
      simp only [h, if_false, ih]
      simp only [List.mem_cons, h, false_or, List.idxOf_cons, beq_iff_eq, h', cond_eq_ite]
      split <;> simp <;> omega

theorem resolveStmt_binds (binds : List Text) (x : Text) (hx : x ∈ binds) :
    resolveStmt (armScope binds) x =
      if "tokens".toList ∈ binds.map identName then none else some ((binds.map identName).idxOf (identName x)) := by
  unfold resolveStmt armScope
  rw [lookupVar_binds, lookupVar_binds]
  rw [if_pos (List.mem_map_of_mem hx)]
  have e : identName "tokens".toList = "tokens".toList := by decide
  rw [e]
  by_cases ht : "tokens".toList ∈ binds.map identName
  · rw [if_pos ht, if_pos ht]
  · rw [if_neg ht, if_neg ht]
    show (match (some (Binding.field (0 + (binds.map identName).idxOf (identName x))) : Option Binding), (some Binding.output) with
      | some (.field i), some .output => some i
      | _, _ => none) = _
    simp

theorem idxOf_map_range_of_nodup {l : List Text} (h : l.Nodup) : l.map (l.idxOf ·) = List.range l.length := by
  apply List.ext_getElem
  · simp
  · intro i h1 h2
    simp at h1
    simp [List.Nodup.idxOf_getElem, h]

/-- An arm whose bindings are pairwise distinct prints all fields in order, unless one of them is called `tokens`. -/
theorem resolveArm_eq (v : Text) (names : List Text) (hn : (names.map identName).Nodup) :
    resolveArm ⟨v, names, names⟩ =
      if "tokens".toList ∈ names.map identName then none else some (List.range names.length) := by
  unfold resolveArm
  split
  · rename_i h
    obtain ⟨x, hx, _⟩ := List.mem_map.1 h
    apply mapM_option_none _ _ _ hx
    show resolveStmt (armScope names) _ = none
    rw [resolveStmt_binds names _ hx, if_pos h]
  · rename_i h
    rw [mapM_option_map _ (fun x => (names.map identName).idxOf (identName x))]
    · have := idxOf_map_range_of_nodup hn
      rw [List.map_map, List.length_map] at this
      rw [← this]; rfl
    · intro a ha
      show resolveStmt (armScope names) _ = _
      rw [resolveStmt_binds names a ha, if_neg h]

theorem identName_tupleVar (v : Text) (i : Nat) : identName (tupleVar v i) = tupleVar v i := by
  unfold tupleVar
  show identName ('p' :: _) = 'p' :: _
  rfl

theorem tupleVars_name (v : Text) (n : Nat) : ((List.range n).map (tupleVar v)).map identName = (List.range n).map (tupleVar v) := by
  rw [List.map_map]
  exact List.map_congr_left fun i _ => identName_tupleVar v i

theorem tupleVar_nodup (v : Text) (n : Nat) : ((List.range n).map (tupleVar v)).Nodup := by
  rw [List.Nodup, List.pairwise_map]
  apply List.Pairwise.imp _ (List.nodup_range (n := n))
  intro a b hab h
  unfold tupleVar at h
  exact hab (natText_injective (List.append_cancel_left h))

theorem tokens_not_tupleVar (v : Text) (n : Nat) : "tokens".toList ∉ (List.range n).map (tupleVar v) := by
  intro h
  obtain ⟨i, _, hi⟩ := List.mem_map.1 h
  unfold tupleVar at hi
  simp at hi

theorem expandArm_resolve (v : VariantDef τ) (hn : (fieldNames v.fields).Nodup) :
    resolveArm (expandArm v) =
      if "tokens".toList ∈ fieldNames v.fields then none else some (List.range v.fields.defs.length) := by
  obtain ⟨vn, fields⟩ := v
  cases fields with
  | named fs =>
    have := resolveArm_eq vn (fs.map Prod.fst) (by rw [List.map_map]; exact hn)
    simp only [List.length_map, List.map_map] at this
    simp only [Fields.defs, List.length_map]
    exact this
  | unnamed fs =>
    have := resolveArm_eq vn _ (by rw [tupleVars_name]; exact tupleVar_nodup vn fs.length)
    rw [tupleVars_name, if_neg (tokens_not_tupleVar vn fs.length)] at this
    simpa [expandArm, fieldNames, Fields.defs] using this
  | unit => simp [expandArm, fieldNames, Fields.defs, resolveArm]

theorem flatMap_range_getElem (pr : V → List X) (l : List V) :
    (List.range l.length).flatMap (fun i => (l[i]?.map pr).getD []) = l.flatMap pr := by
  have : (List.range l.length).map (fun i => (l[i]?.map pr).getD []) = l.map pr := by
    apply List.ext_getElem
    · simp
    · intro i h1 h2
      simp at h1
      simp [h1]
  rw [List.flatMap_def, this, ← List.flatMap_def]

theorem findIdx_of_nodup (fs : List (Text × FieldDef τ)) (h : (fs.map fun f => identName f.1).Nodup) (i : Nat) (hi : i < fs.length) :
    fs.findIdx? (fun f => decide (identName f.1 = identName fs[i].1)) = some i := by
  rw [List.findIdx?_eq_some_iff_getElem]
  refine ⟨hi, by simp, ?_⟩
  intro j hj
  simp only [decide_eq_true_eq]
  intro heq
  rw [List.Nodup, List.pairwise_map] at h
  exact (List.pairwise_iff_getElem.1 h) j i (by omega) hi hj heq

theorem struct_resolve (fields : Fields τ) (hn : (fieldNames fields).Nodup) :
    (expandPrintStruct fields).mapM (resolveAccess fields) = some (List.range fields.defs.length) := by
  cases fields with
  | named fs =>
    have h1 : (expandPrintStruct (Fields.named fs)) = (List.range fs.length).map
        (fun i => Access.name ((fs[i]?.map Prod.fst).getD [])) := by
      simp only [expandPrintStruct]
      apply List.ext_getElem
      · simp
      · intro i h1 h2
        simp at h1
        simp [h1]
    rw [h1, mapM_option_map _ (fun a => match a with | .name n => fs.findIdx (fun f => decide (identName f.1 = identName n)) | .index i => i)]
    · simp only [List.map_map, Fields.defs, List.length_map]
      congr 1
      apply List.ext_getElem
      · simp
      · intro i h1 h2
        simp at h1
        have := findIdx_of_nodup fs hn i h1
        simp [h1]
        rw [List.findIdx?_eq_some_iff_findIdx_eq] at this
        simpa using this.2
    · intro a ha
      obtain ⟨i, hi, rfl⟩ := List.mem_map.1 ha
      simp at hi
      simp only [resolveAccess, List.getElem?_eq_getElem hi, Option.map_some, Option.getD_some]
      have := findIdx_of_nodup fs hn i hi
      rw [this]
      rw [List.findIdx?_eq_some_iff_findIdx_eq] at this
      exact congrArg some this.2.symm
  | unnamed fs =>
    simp only [expandPrintStruct, Fields.defs]
    rw [mapM_option_map _ (fun a => match a with | .name n => 0 | .index i => i)]
    · simp [List.map_map, Function.comp_def]
    · intro a ha
      obtain ⟨i, hi, rfl⟩ := List.mem_map.1 ha
      simp at hi
      simp [resolveAccess, hi]
  | unit => rfl

end Parsel
