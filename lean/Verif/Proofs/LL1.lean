import Verif.Proofs.LL1Leaf

/-! A grammar that passes the checker of Spec/LL1.lean is an LL(1) grammar in the sense of Spec/Predict.lean. -/

namespace Parsel
open Spec

/-! ### alternating sequences -/

theorem alternate_split : ∀ {n : Nat} {t p x : Ty} {pre post : List Ty}, alternate t p n = pre ++ x :: post →
    (x = t ∧ ∃ m, post = alternate p t m) ∨ (x = p ∧ ∃ m, post = alternate t p m)
  | 0, _, _, _, pre, _, h => by cases pre <;> simp [alternate] at h
  | n + 1, t, p, x, [], post, h => by
    simp only [alternate, List.nil_append, List.cons.injEq] at h
    exact .inl ⟨h.1.symm, n, h.2.symm⟩
  | n + 1, t, p, x, y :: pre, post, h => by
    simp only [alternate, List.cons_append, List.cons.injEq] at h
    rcases alternate_split h.2 with ⟨h1, h2⟩ | ⟨h1, h2⟩
    · exact .inr ⟨h1, h2⟩
    · exact .inl ⟨h1, h2⟩

theorem alternate_odd : ∀ {n : Nat} {t p x : Ty} {pre post : List Ty}, alternate t p (2 * n + 1) = pre ++ x :: post → x = t ∨ x = p ∧ t ∈ post
  | 0, t, p, x, pre, post, h => by
    cases pre with
    | nil => simp only [alternate, List.nil_append, List.cons.injEq] at h; exact .inl h.1.symm
    | cons y pre => simp [alternate] at h
  | n + 1, t, p, x, pre, post, h => by
    rw [show 2 * (n + 1) + 1 = 2 * n + 1 + 1 + 1 from by omega] at h
    match pre with
    | [] => simp only [alternate, List.nil_append, List.cons.injEq] at h; exact .inl h.1.symm
    | [y] =>
      simp only [alternate, List.cons_append, List.nil_append, List.cons.injEq] at h
      exact .inr ⟨h.2.1.symm, by rw [← h.2.2]; simp⟩
    | y :: z :: pre =>
      rw [alternate, alternate] at h
      simp only [List.cons_append, List.cons.injEq] at h
      exact alternate_odd h.2.2

/-! ### sound tables -/

section
variable {env : Env} {G : List Ty} {c : Tables}

/-- The tables contain what follows from the parts, for every type of the grammar. -/
def Covers (env : Env) (G : List Ty) (c : Tables) : Prop := ∀ t ∈ G, c.closedAt env G t = true

theorem partOf_parts {t u : Ty} (h : PartOf env u t) : u ∈ Tables.parts env t := by
  cases h with
  | struct he h => simp only [Tables.parts, he]; exact h
  | enum he hv h => simp only [Tables.parts, he, List.mem_flatMap]; exact ⟨_, hv, h⟩
  | boxed => exact .head _
  | maybe h => exact h
  | paren => exact .head _
  | bracket => exact .head _
  | brace => exact .head _
  | punctuated h => exact h
  | separated h => exact h
  | any => exact .head _
  | leftAssoc h => exact h
  | rightAssoc h => exact h
  | either h => exact h

theorem Covers.at (h : Covers env G c) {t : Ty} (ht : t ∈ G) :
    (∀ u ∈ Tables.parts env t, u ∈ G) ∧ (c.empStep env t = true → c.emp t = true) ∧ (c.skipStep env t = true → c.skip t = true) ∧
      (∀ u ∈ c.firstStep env t, u ∈ c.first t) ∧ (∀ u ∈ c.grabStep env t, u ∈ c.grab t) ∧ ∀ u ∈ c.startsOf env t, c.rank u < c.rank t := by
  have := h t ht
  simp only [Tables.closedAt, Bool.and_eq_true, List.all_eq_true, List.contains_iff_mem, Bool.or_eq_true, Bool.not_eq_true', decide_eq_true_eq] at this
  obtain ⟨⟨⟨⟨⟨h1, h2⟩, h3⟩, h4⟩, h5⟩, h6⟩ := this
  refine ⟨h1, fun he => ?_, fun he => ?_, h4, h5, h6⟩
  · rcases h2 with h2 | h2
    · rw [he] at h2; cases h2
    · exact h2
  · rcases h3 with h3 | h3
    · rw [he] at h3; cases h3
    · exact h3

theorem Covers.part (h : Covers env G c) {t u : Ty} (ht : t ∈ G) (hp : PartOf env u t) : u ∈ G := (h.at ht).1 u (partOf_parts hp)

theorem Covers.emp (h : Covers env G c) {t : Ty} (he : CanBeEmpty env t) : t ∈ G → c.emp t = true := by
  induction he with
  | empty => exact fun ht => (h.at ht).2.1 rfl
  | eof => exact fun ht => (h.at ht).2.1 rfl
  | notEof => exact fun ht => (h.at ht).2.1 rfl
  | punct => exact fun ht => (h.at ht).2.1 rfl
  | struct hx _ ih =>
    exact fun ht => (h.at ht).2.1 (by simp only [Tables.empStep, hx, List.all_eq_true]; exact fun t htt => ih t htt (h.part ht (.struct hx htt)))
  | enum hx hv _ ih =>
    exact fun ht => (h.at ht).2.1 (by
      simp only [Tables.empStep, hx, List.any_eq_true, List.all_eq_true]
      exact ⟨_, hv, fun t htt => ih t htt (h.part ht (.enum hx hv htt))⟩)
  | boxed _ ih => exact fun ht => (h.at ht).2.1 (ih (h.part ht .boxed))
  | maybe => exact fun ht => (h.at ht).2.1 rfl
  | punctuated => exact fun ht => (h.at ht).2.1 rfl
  | any => exact fun ht => (h.at ht).2.1 rfl
  | separated _ ih => exact fun ht => (h.at ht).2.1 (ih (h.part ht (.separated (by simp))))
  | leftAssoc _ ih => exact fun ht => (h.at ht).2.1 (ih (h.part ht (.leftAssoc (by simp))))
  | rightAssoc _ ih => exact fun ht => (h.at ht).2.1 (ih (h.part ht (.rightAssoc (by simp))))
  | eitherLeft _ ih => exact fun ht => (h.at ht).2.1 (by simp [Tables.empStep, ih (h.part ht (.either (by simp)))])
  | eitherRight _ ih => exact fun ht => (h.at ht).2.1 (by simp [Tables.empStep, ih (h.part ht (.either (by simp)))])

theorem Covers.skip (h : Covers env G c) {t : Ty} (he : Skippable env t) : t ∈ G → c.skip t = true := by
  induction he with
  | empty => exact fun ht => (h.at ht).2.2.1 rfl
  | punct => exact fun ht => (h.at ht).2.2.1 rfl
  | struct hx _ ih =>
    exact fun ht => (h.at ht).2.2.1 (by simp only [Tables.skipStep, hx, List.all_eq_true]; exact fun t htt => ih t htt (h.part ht (.struct hx htt)))
  | enum hx hv _ ih =>
    exact fun ht => (h.at ht).2.2.1 (by
      simp only [Tables.skipStep, hx, List.any_eq_true, List.all_eq_true]
      exact ⟨_, hv, fun t htt => ih t htt (h.part ht (.enum hx hv htt))⟩)
  | boxed _ ih => exact fun ht => (h.at ht).2.2.1 (ih (h.part ht .boxed))
  | maybe => exact fun ht => (h.at ht).2.2.1 rfl
  | punctuated => exact fun ht => (h.at ht).2.2.1 rfl
  | any => exact fun ht => (h.at ht).2.2.1 rfl
  | separated _ ih => exact fun ht => (h.at ht).2.2.1 (ih (h.part ht (.separated (by simp))))
  | leftAssoc _ ih => exact fun ht => (h.at ht).2.2.1 (ih (h.part ht (.leftAssoc (by simp))))
  | rightAssoc _ ih => exact fun ht => (h.at ht).2.2.1 (ih (h.part ht (.rightAssoc (by simp))))
  | eitherLeft _ ih => exact fun ht => (h.at ht).2.2.1 (by simp [Tables.skipStep, ih (h.part ht (.either (by simp)))])
  | eitherRight _ ih => exact fun ht => (h.at ht).2.2.1 (by simp [Tables.skipStep, ih (h.part ht (.either (by simp)))])

theorem starts_cons {c : Tables} {t u : Ty} {ts : List Ty} : u ∈ c.starts (t :: ts) ↔ u = t ∨ c.emp t = true ∧ u ∈ c.starts ts := by
  cases he : c.emp t <;> simp [Tables.starts, he]

theorem Covers.starts (h : Covers env G c) {u : Ty} : ∀ {ts : List Ty}, (∀ t ∈ ts, t ∈ G) → SeqStarts env ts u → u ∈ c.starts ts
  | [], _, ⟨pre, post, hs, _⟩ => by cases pre <;> simp at hs
  | t :: ts, hG, ⟨[], post, hs, _⟩ => by
    simp only [List.nil_append, List.cons.injEq] at hs
    exact starts_cons.mpr (.inl hs.1.symm)
  | t :: ts, hG, ⟨y :: pre, post, hs, he⟩ => by
    simp only [List.cons_append, List.cons.injEq] at hs
    obtain ⟨rfl, hs⟩ := hs
    exact starts_cons.mpr (.inr ⟨h.emp (he t (by simp)) (hG t (by simp)),
      Covers.starts h (fun y hy => hG y (by simp [hy])) ⟨pre, post, hs, fun y hy => he y (by simp [hy])⟩⟩)

theorem Covers.startsOf (h : Covers env G c) {t u : Ty} (ht : t ∈ G) (hs : StartsWith env t u) : u ∈ c.startsOf env t := by
  cases hs with
  | struct hx hs => simp only [Tables.startsOf, hx]; exact h.starts (fun y hy => h.part ht (.struct hx hy)) hs
  | enum hx hv hs =>
    simp only [Tables.startsOf, hx, List.mem_flatMap]
    exact ⟨_, hv, h.starts (fun y hy => h.part ht (.enum hx hv hy)) hs⟩
  | boxed => exact .head _
  | maybe hs => exact h.starts (fun y hy => h.part ht (.maybe hy)) hs
  | punctuated hs => exact h.starts (fun y hy => h.part ht (.punctuated hy)) hs
  | separated hs => exact h.starts (fun y hy => h.part ht (.separated hy)) hs
  | any => exact .head _
  | leftAssoc hs => exact h.starts (fun y hy => h.part ht (.leftAssoc (by simp at hy ⊢; exact hy.symm))) hs
  | rightAssoc hs => exact h.starts (fun y hy => h.part ht (.rightAssoc (by simp at hy ⊢; exact hy.symm))) hs
  | eitherLeft => exact .head _
  | eitherRight => exact .tail _ (.head _)

theorem seqStarts_mem {ts : List Ty} {u : Ty} (h : SeqStarts env ts u) : u ∈ ts := by
  obtain ⟨pre, post, rfl, _⟩ := h
  simp

theorem Covers.startsIn (h : Covers env G c) {t u : Ty} (ht : t ∈ G) (hs : StartsWith env t u) : u ∈ G := by
  cases hs with
  | struct hx hs => exact h.part ht (.struct hx (seqStarts_mem hs))
  | enum hx hv hs => exact h.part ht (.enum hx hv (seqStarts_mem hs))
  | boxed => exact h.part ht .boxed
  | maybe hs => exact h.part ht (.maybe (seqStarts_mem hs))
  | punctuated hs => exact h.part ht (.punctuated (seqStarts_mem hs))
  | separated hs => exact h.part ht (.separated (seqStarts_mem hs))
  | any => exact h.part ht .any
  | leftAssoc hs => exact h.part ht (.leftAssoc (by have := seqStarts_mem hs; simp at this ⊢; exact this.symm))
  | rightAssoc hs => exact h.part ht (.rightAssoc (by have := seqStarts_mem hs; simp at this ⊢; exact this.symm))
  | eitherLeft => exact h.part ht (.either (by simp))
  | eitherRight => exact h.part ht (.either (by simp))

theorem Covers.rank (h : Covers env G c) {t u : Ty} (hc : Chain (StartsWith env) t u) : t ∈ G → c.rank u < c.rank t := by
  induction hc with
  | one hs => exact fun ht => (h.at ht).2.2.2.2.2 _ (h.startsOf ht hs)
  | more hs _ ih => exact fun ht => Nat.lt_trans (ih (h.startsIn ht hs)) ((h.at ht).2.2.2.2.2 _ (h.startsOf ht hs))

theorem isLead_first {u : Ty} (h : IsLead u) : (picky u || u == .leaf .notEof) = true := by
  cases u with
  | leaf l =>
    cases l with
    | empty => exact h.elim
    | punct a => cases a with
      | nil => exact h.elim
      | cons _ _ => rfl
    | _ => rfl
  | paren t => rfl
  | bracket t => rfl
  | brace t => rfl
  | _ => exact h.elim

theorem Covers.first (h : Covers env G c) {t u : Ty} (ht : t ∈ G) (hl : Lead env t u) : u ∈ c.first t := by
  obtain ⟨hi, hc⟩ := hl
  have self : ∀ {t}, t = u → t ∈ G → u ∈ c.first t := by
    rintro t rfl ht
    refine (h.at ht).2.2.2.1 _ ?_
    simp only [Tables.firstStep, isLead_first hi, if_true]
    simp
  have step : ∀ {t w}, StartsWith env t w → t ∈ G → u ∈ c.first w → u ∈ c.first t := by
    intro t w hs ht hw
    refine (h.at ht).2.2.2.1 _ ?_
    simp only [Tables.firstStep, List.mem_append, List.mem_flatMap]
    exact .inr ⟨w, h.startsOf ht hs, hw⟩
  rcases hc with rfl | hc
  · exact self rfl ht
  · have : ∀ {t w}, Chain (StartsWith env) t w → t ∈ G → w = u → u ∈ c.first t := by
      intro t w hc
      induction hc with
      | one hs => exact fun ht hw => step hs ht (self hw (h.startsIn ht hs))
      | more hs _ ih => exact fun ht hw => step hs ht (ih (h.startsIn ht hs) hw)
    exact this hc ht rfl

theorem Covers.seqFirst (h : Covers env G c) {ts : List Ty} (hG : ∀ t ∈ ts, t ∈ G) {u : Ty} (hl : SeqLead env ts u) : u ∈ c.seqFirst ts := by
  obtain ⟨t, hs, hl⟩ := hl
  exact List.mem_flatMap.mpr ⟨t, h.starts hG hs, h.first (hG t (seqStarts_mem hs)) hl⟩

theorem Covers.seqGrab (h : Covers env G c) {u x : Ty} : ∀ {ts pre post : List Ty}, (∀ t ∈ ts, t ∈ G) → ts = pre ++ x :: post →
    (∀ y ∈ post, CanBeEmpty env y) → u ∈ c.grab x → u ∈ c.seqGrab ts
  | [], pre, _, _, hs, _, _ => by cases pre <;> simp at hs
  | t :: ts, [], post, hG, hs, he, hu => by
    simp only [List.nil_append, List.cons.injEq] at hs
    obtain ⟨rfl, rfl⟩ := hs
    have : ts.all c.emp = true := List.all_eq_true.mpr fun y hy => h.emp (he y hy) (hG y (by simp [hy]))
    simp only [Tables.seqGrab, this, if_true, List.mem_append]
    exact .inl hu
  | t :: ts, y :: pre, post, hG, hs, he, hu => by
    simp only [List.cons_append, List.cons.injEq] at hs
    simp only [Tables.seqGrab, List.mem_append]
    exact .inr (Covers.seqGrab h (fun y hy => hG y (by simp [hy])) hs.2 he hu)

theorem Covers.earlier (h : Covers env G c) {u : Ty} {v w : List Ty} : ∀ {vs before mid after : List (List Ty)}, (∀ w ∈ vs, ∀ t ∈ w, t ∈ G) →
    vs = before ++ v :: (mid ++ w :: after) → (∀ y ∈ w, CanBeEmpty env y) → SeqLead env v u → u ∈ c.earlier vs
  | [], before, _, _, _, hs, _, _ => by cases before <;> simp at hs
  | x :: vs, [], mid, after, hG, hs, he, hu => by
    simp only [List.nil_append, List.cons.injEq] at hs
    obtain ⟨rfl, rfl⟩ := hs
    have : ((mid ++ w :: after).any fun w => w.all c.emp) = true :=
      List.any_eq_true.mpr ⟨w, by simp, List.all_eq_true.mpr fun y hy => h.emp (he y hy) (hG w (by simp) y hy)⟩
    simp only [Tables.earlier, this, if_true, List.mem_append]
    exact .inl (h.seqFirst (hG x (by simp)) hu)
  | x :: vs, y :: before, mid, after, hG, hs, he, hu => by
    simp only [List.cons_append, List.cons.injEq] at hs
    simp only [Tables.earlier, List.mem_append]
    exact .inr (Covers.earlier h (fun y hy => hG y (by simp [hy])) hs.2 he hu)

theorem Covers.grab (h : Covers env G c) {t u : Ty} (hg : Grabs env t u) : t ∈ G → u ∈ c.grab t := by
  have alt : ∀ {t p x u : Ty} {n pre post}, t ∈ G → alternate t p (2 * n + 1) = pre ++ x :: post → (∀ y ∈ post, CanBeEmpty env y) →
      u ∈ c.grab x → u ∈ c.grab t ++ if c.emp t then c.grab p else [] := by
    intro t p x u n pre post ht hs he hu
    rw [List.mem_append]
    rcases alternate_odd hs with rfl | ⟨rfl, hm⟩
    · exact .inl hu
    · rw [if_pos (h.emp (he _ hm) ht)]; exact .inr hu
  induction hg with
  | eof => exact fun ht => (h.at ht).2.2.2.2.1 _ (.head _)
  | notEof => exact fun ht => (h.at ht).2.2.2.2.1 _ (.head _)
  | @struct x fields pre t post u hx hs he _ ih =>
    intro ht
    have hG : ∀ y ∈ fieldTypes fields, y ∈ G := fun y hy => h.part ht (.struct hx hy)
    exact (h.at ht).2.2.2.2.1 _ (by simp only [Tables.grabStep, hx]; exact h.seqGrab hG hs he (ih (hG t (by simp [hs]))))
  | @enum x vs v pre t post u hx hv hs he _ ih =>
    intro ht
    have hG : ∀ y ∈ fieldTypes v.fields, y ∈ G := fun y hy => h.part ht (.enum hx hv hy)
    refine (h.at ht).2.2.2.2.1 _ ?_
    simp only [Tables.grabStep, hx, List.mem_append, List.mem_flatMap]
    exact .inl ⟨v, hv, h.seqGrab hG hs he (ih (hG t (by simp [hs])))⟩
  | @earlier x vs before v mid w after u hx hs he hl =>
    intro ht
    refine (h.at ht).2.2.2.2.1 _ ?_
    simp only [Tables.grabStep, hx, List.mem_append]
    refine .inr (h.earlier (before := before.map fun v => fieldTypes v.fields) (v := fieldTypes v.fields) (mid := mid.map fun v => fieldTypes v.fields)
      (w := fieldTypes w.fields) (after := after.map fun v => fieldTypes v.fields) ?_ (by simp [hs]) he hl)
    intro z hz y hy
    obtain ⟨v', hv', rfl⟩ := List.mem_map.mp hz
    exact h.part ht (.enum hx hv' hy)
  | boxed _ ih => exact fun ht => (h.at ht).2.2.2.2.1 _ (ih (h.part ht .boxed))
  | maybePrefix hl => exact fun ht => (h.at ht).2.2.2.2.1 _ (List.mem_append.mpr (.inl (h.first (h.part ht (.maybe (by simp))) hl)))
  | maybeInner _ ih =>
    exact fun ht => (h.at ht).2.2.2.2.1 _ (List.mem_append.mpr (.inr (h.seqGrab (pre := [_]) (post := []) (fun y hy => h.part ht (.maybe hy)) rfl (by simp)
      (ih (h.part ht (.maybe (by simp)))))))
  | maybeEnd he _ ih =>
    exact fun ht => (h.at ht).2.2.2.2.1 _ (List.mem_append.mpr (.inr (h.seqGrab (pre := []) (fun y hy => h.part ht (.maybe hy)) rfl (by simpa using he)
      (ih (h.part ht (.maybe (by simp)))))))
  | punctuated => exact fun ht => (h.at ht).2.2.2.2.1 _ (.head _)
  | separator hl => exact fun ht => (h.at ht).2.2.2.2.1 _ (List.mem_append.mpr (.inl (h.first (h.part ht (.separated (by simp))) hl)))
  | @separated t p n pre x post u hs he _ ih =>
    intro ht
    have hx : x = t ∨ x = p := by have := mem_alternate (t := t) (p := p) (x := x) (n := 2 * n + 1) (by simp [hs]); exact this
    exact (h.at ht).2.2.2.2.1 _ (List.mem_append.mpr (.inr (alt (h.part ht (.separated (by simp))) hs he
      (ih (h.part ht (.separated (by simpa using hx)))))))
  | item hl => exact fun ht => (h.at ht).2.2.2.2.1 _ (List.mem_append.mpr (.inl (h.first (h.part ht .any) hl)))
  | @any t n pre x post u hs he _ ih =>
    intro ht
    have hx : x = t := (List.mem_replicate.mp (show x ∈ List.replicate n t by simp [hs])).2
    subst hx
    exact (h.at ht).2.2.2.2.1 _ (List.mem_append.mpr (.inr (ih (h.part ht .any))))
  | leftOperator hl => exact fun ht => (h.at ht).2.2.2.2.1 _ (List.mem_append.mpr (.inl (h.first (h.part ht (.leftAssoc (by simp))) hl)))
  | @leftAssoc o r n pre x post u hs he _ ih =>
    intro ht
    have hx : x = r ∨ x = o := mem_alternate (n := 2 * n + 1) (by simp [hs])
    exact (h.at ht).2.2.2.2.1 _ (List.mem_append.mpr (.inr (alt (h.part ht (.leftAssoc (by simp))) hs he
      (ih (h.part ht (.leftAssoc (by simpa using hx.symm)))))))
  | rightOperator hl => exact fun ht => (h.at ht).2.2.2.2.1 _ (List.mem_append.mpr (.inl (h.first (h.part ht (.rightAssoc (by simp))) hl)))
  | @rightAssoc o r n pre x post u hs he _ ih =>
    intro ht
    have hx : x = r ∨ x = o := mem_alternate (n := 2 * n + 1) (by simp [hs])
    exact (h.at ht).2.2.2.2.1 _ (List.mem_append.mpr (.inr (alt (h.part ht (.rightAssoc (by simp))) hs he
      (ih (h.part ht (.rightAssoc (by simpa using hx.symm)))))))
  | eitherLeft _ ih =>
    exact fun ht => (h.at ht).2.2.2.2.1 _ (List.mem_append.mpr (.inr (List.mem_append.mpr (.inl (ih (h.part ht (.either (by simp))))))))
  | eitherRight _ ih =>
    exact fun ht => (h.at ht).2.2.2.2.1 _ (List.mem_append.mpr (.inr (List.mem_append.mpr (.inr (ih (h.part ht (.either (by simp))))))))
  | eitherFirst he hl =>
    exact fun ht => (h.at ht).2.2.2.2.1 _ (List.mem_append.mpr (.inl (by
      rw [if_pos (h.emp he (h.part ht (.either (by simp))))]; exact h.first (h.part ht (.either (by simp))) hl)))

end

/-! ### sound conditions -/

section
variable [Ext] {env : Env} {G : List Ty} {c : Tables}

theorem allApart_sound (laws : FloatLaws) {us ws : List Ty} (h : Tables.allApart us ws = true) {u w : Ty} (hu : u ∈ us) (hw : w ∈ ws) : Apart env u w := by
  simp only [Tables.allApart, List.all_eq_true] at h
  exact apart_sound laws (h u hu w hw)

theorem seqApart_sound (laws : FloatLaws) (hc : Covers env G c) : ∀ {ts : List Ty}, (∀ t ∈ ts, t ∈ G) → c.seqApart ts = true → SeqApart env ts
  | [], _, _ => fun pre t post hs => by cases pre <;> simp at hs
  | t :: ts, hG, h => by
    simp only [Tables.seqApart, Bool.and_eq_true] at h
    intro pre x post hs u w hu hw
    cases pre with
    | nil =>
      simp only [List.nil_append, List.cons.injEq] at hs
      obtain ⟨rfl, rfl⟩ := hs
      exact allApart_sound laws h.1 (hc.grab hu (hG t (by simp))) (hc.seqFirst (fun y hy => hG y (by simp [hy])) hw)
    | cons y pre =>
      simp only [List.cons_append, List.cons.injEq] at hs
      exact seqApart_sound laws hc (fun y hy => hG y (by simp [hy])) h.2 pre x post hs.2 u w hu hw

theorem altApart_sound (laws : FloatLaws) (hc : Covers env G c) {t p : Ty} (ht : t ∈ G) (hp : p ∈ G) (h : c.altApart t p = true) (n : Nat) :
    SeqApart env (alternate t p n) := by
  simp only [Tables.altApart, Bool.and_eq_true] at h
  intro pre x post hs u w hu hw
  rcases alternate_split hs with ⟨rfl, m, rfl⟩ | ⟨rfl, m, rfl⟩
  · exact allApart_sound laws h.1 (hc.grab hu ht) (hc.seqFirst (by simp [ht, hp]) (alternate_lead hw))
  · exact allApart_sound laws h.2 (hc.grab hu hp) (hc.seqFirst (by simp [ht, hp]) (alternate_lead hw))

theorem variantsApart_sound (laws : FloatLaws) (hc : Covers env G c) {v w : List Ty} : ∀ {vs before mid after : List (List Ty)},
    (∀ w ∈ vs, ∀ t ∈ w, t ∈ G) → c.variantsApart vs = true → vs = before ++ v :: (mid ++ w :: after) →
    (¬ ∀ t ∈ v, Skippable env t) ∧ ∀ u b, SeqLead env v u → SeqLead env w b → Apart env u b
  | [], before, _, _, _, _, hs => by cases before <;> simp at hs
  | x :: vs, [], mid, after, hG, h, hs => by
    simp only [List.nil_append, List.cons.injEq] at hs
    obtain ⟨rfl, rfl⟩ := hs
    simp only [Tables.variantsApart, Bool.and_eq_true, Bool.or_eq_true, Bool.not_eq_true', List.all_eq_true] at h
    obtain ⟨⟨h1, h2⟩, _⟩ := h
    refine ⟨fun hall => ?_, fun u b hu hb => allApart_sound laws (h2 w (by simp)) (hc.seqFirst (hG x (by simp)) hu) (hc.seqFirst (hG w (by simp)) hb)⟩
    rcases h1 with h1 | h1
    · simp at h1
    · have : x.all c.skip = true := List.all_eq_true.mpr fun y hy => hc.skip (hall y hy) (hG x (by simp) y hy)
      rw [this] at h1; cases h1
  | x :: vs, y :: before, mid, after, hG, h, hs => by
    simp only [List.cons_append, List.cons.injEq] at hs
    simp only [Tables.variantsApart, Bool.and_eq_true] at h
    exact variantsApart_sound laws hc (fun y hy => hG y (by simp [hy])) h.2 hs.2

theorem notSkip (hc : Covers env G c) {t : Ty} (ht : t ∈ G) (h : (!c.skip t) = true) : ¬ Skippable env t := fun hs => by
  rw [hc.skip hs ht] at h; cases h

theorem grabsEnd (hc : Covers env G c) {t : Ty} (ht : t ∈ G) (h : (c.grab t).all refusesEnd = true) (u : Ty) (hu : Grabs env t u) : Refuses env u [] :=
  refusesEnd_sound (List.all_eq_true.mp h u (hc.grab hu ht))

theorem predictive_sound (laws : FloatLaws) (hc : Covers env G c) {t : Ty} (ht : t ∈ G) (h : c.predictive env t = true) : Predictive env t := by
  cases t with
  | leaf l => trivial
  | boxed t => trivial
  | named x =>
    simp only [Tables.predictive] at h
    simp only [Predictive]
    split
    · rename_i fields hx
      rw [hx] at h
      exact seqApart_sound laws hc (fun y hy => hc.part ht (.struct hx hy)) h
    · rename_i vs hx
      rw [hx] at h
      simp only [Bool.and_eq_true, List.all_eq_true] at h
      refine ⟨fun v hv => seqApart_sound laws hc (fun y hy => hc.part ht (.enum hx hv hy)) (h.1 v hv), fun before v mid w after hs => ?_⟩
      refine variantsApart_sound laws hc (v := fieldTypes v.fields) (w := fieldTypes w.fields) (before := before.map fun v => fieldTypes v.fields)
        (mid := mid.map fun v => fieldTypes v.fields) (after := after.map fun v => fieldTypes v.fields) ?_ h.2 (by simp [hs])
      intro z hz y hy
      obtain ⟨v', hv', rfl⟩ := List.mem_map.mp hz
      exact hc.part ht (.enum hx hv' hy)
  | maybe p t =>
    simp only [Tables.predictive, Bool.and_eq_true] at h
    exact ⟨notSkip hc (hc.part ht (.maybe (by simp))) h.1, seqApart_sound laws hc (fun y hy => hc.part ht (.maybe hy)) h.2⟩
  | paren t => exact grabsEnd hc (hc.part ht .paren) h
  | bracket t => exact grabsEnd hc (hc.part ht .bracket) h
  | brace t => exact grabsEnd hc (hc.part ht .brace) h
  | punctuated t p =>
    simp only [Tables.predictive, Bool.and_eq_true, Bool.or_eq_true, beq_iff_eq] at h
    have h1 := hc.part ht (.punctuated (t := t) (p := p) (u := t) (by simp))
    have h2 := hc.part ht (.punctuated (t := t) (p := p) (u := p) (by simp))
    exact ⟨altApart_sound laws hc h1 h2 h.1.1, grabsEnd hc h1 h.1.2, h.2.imp id fun h => grabsEnd hc h2 h⟩
  | separated t p =>
    simp only [Tables.predictive, Bool.and_eq_true] at h
    have h1 := hc.part ht (.separated (t := t) (p := p) (u := t) (by simp))
    have h2 := hc.part ht (.separated (t := t) (p := p) (u := p) (by simp))
    exact ⟨notSkip hc h2 h.1, altApart_sound laws hc h1 h2 h.2⟩
  | any t =>
    simp only [Tables.predictive, Bool.and_eq_true] at h
    have h1 := hc.part ht .any
    refine ⟨notSkip hc h1 h.1, fun n pre x post hs u w hu hw => ?_⟩
    have hx : x = t := (List.mem_replicate.mp (show x ∈ List.replicate n t by simp [hs])).2
    subst hx
    obtain ⟨y, hy, hl⟩ := hw
    have hm : y ∈ List.replicate n x := by rw [hs]; have := seqStarts_mem hy; simp [this]
    have : y = x := (List.mem_replicate.mp hm).2
    subst this
    exact allApart_sound laws h.2 (hc.grab hu h1) (hc.first h1 hl)
  | leftAssoc o r =>
    simp only [Tables.predictive, Bool.and_eq_true] at h
    have h1 := hc.part ht (.leftAssoc (o := o) (r := r) (u := o) (by simp))
    have h2 := hc.part ht (.leftAssoc (o := o) (r := r) (u := r) (by simp))
    exact ⟨notSkip hc h1 h.1, altApart_sound laws hc h2 h1 h.2⟩
  | rightAssoc o l =>
    simp only [Tables.predictive, Bool.and_eq_true] at h
    have h1 := hc.part ht (.rightAssoc (o := o) (l := l) (u := o) (by simp))
    have h2 := hc.part ht (.rightAssoc (o := o) (l := l) (u := l) (by simp))
    exact ⟨notSkip hc h1 h.1, altApart_sound laws hc h2 h1 h.2⟩
  | either l r =>
    simp only [Tables.predictive, Bool.and_eq_true] at h
    have h1 := hc.part ht (.either (l := l) (r := r) (u := l) (by simp))
    have h2 := hc.part ht (.either (l := l) (r := r) (u := r) (by simp))
    exact ⟨notSkip hc h1 h.1, fun u w hu hw => allApart_sound laws h.2 (hc.first h1 hu) (hc.first h2 hw)⟩

theorem rounds_sound (hc : Covers env G c) {t : Ty} (ht : t ∈ G) (h : c.rounds t = true) : RoundsRead env t := by
  have two : ∀ {a b}, a ∈ G → b ∈ G → (!(c.emp a && c.emp b)) = true → ¬ (CanBeEmpty env a ∧ CanBeEmpty env b) := by
    rintro a b ha hb h ⟨h1, h2⟩
    rw [hc.emp h1 ha, hc.emp h2 hb] at h; cases h
  cases t with
  | punctuated t p => exact two (hc.part ht (.punctuated (by simp))) (hc.part ht (.punctuated (by simp))) h
  | separated t p => exact two (hc.part ht (.separated (by simp))) (hc.part ht (.separated (by simp))) h
  | leftAssoc o r => exact two (hc.part ht (.leftAssoc (by simp))) (hc.part ht (.leftAssoc (by simp))) h
  | rightAssoc o r => exact two (hc.part ht (.rightAssoc (by simp))) (hc.part ht (.rightAssoc (by simp))) h
  | any t => exact fun h1 => by replace h : (!c.emp t) = true := h; rw [hc.emp h1 (hc.part ht .any)] at h; cases h
  | _ => trivial

theorem passes_covers (h : c.passes env G = true) : Covers env G c := fun t ht => by
  have := List.all_eq_true.mp h t ht
  simp only [Bool.and_eq_true] at this
  exact this.1.1

/-- Grammars that pass the checker with any tables whatsoever are LL(1). -/
theorem grammar_of_passes (laws : FloatLaws) (h : c.passes env G = true) : Grammar env G where
  closed t ht u hu := (passes_covers h).part ht hu
  noLeftRecursion t ht hc := absurd ((passes_covers h).rank hc ht) (Nat.lt_irrefl _)
  rounds t ht := rounds_sound (passes_covers h) ht (by
    have := List.all_eq_true.mp h t ht
    simp only [Bool.and_eq_true] at this
    exact this.2)
  predictive t ht := predictive_sound laws (passes_covers h) ht (by
    have := List.all_eq_true.mp h t ht
    simp only [Bool.and_eq_true] at this
    exact this.1.2)

theorem grammar_of_ll1 (laws : FloatLaws) {n : Nat} (h : ll1 env G n = true) : Grammar env G := grammar_of_passes laws h

theorem end_of_ll1 {n : Nat} (h : ll1 env G n = true) {t : Ty} (ht : t ∈ G) (he : closesAtEnd env G n t = true) (u : Ty) (hu : Grabs env t u) :
    Refuses env u [] := grabsEnd (passes_covers h) ht he u hu

end

end Parsel
