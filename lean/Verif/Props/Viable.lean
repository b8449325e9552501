import Verif.Proofs.ViableCheck
import Verif.Props.Language
import Verif.Props.Peg
import Verif.Props.Quote
import Verif.Props.Readme
import Verif.Props.Source

/-! C83: what comes before the place of an error is not at fault. -/

namespace Parsel
open Spec

section
variable [Ext]

theorem keeps_mono {S T : List TT → List TT → Prop} (h : ∀ a b, S a b → T a b) {ts cur new : List TT} {sc sc' : Span} (hk : Keeps S ts sc cur sc' new) : Keeps T ts sc cur sc' new := by
  induction hk with
  | here e => exact .here (h _ _ e)
  | into e _ ih => exact .into (h _ _ e) ih

theorem productive_of_samples {env : Env} {G : List Ty} (h : Samples env G) : Productive env G := fun u hu =>
  let ⟨w, out, h1, _, h2, _⟩ := h u hu
  ⟨w, out, h1, h2⟩

/-- The two ways to be rejected. -/
theorem rejected_cases {env : Env} {t : Ty} {ts : List TT} {e : Err} (h : Rejects env t ts e) : (∃ n, parse env n t ⟨ts, .callSite, none⟩ = .err e) ∨
    ∃ v rest left l2 sp, Matches env t ts v rest left ∧ FirstUnread rest l2 ∧ left.or l2 = some sp ∧ e = ⟨sp, "unexpected token".toList⟩ := by
  obtain ⟨n, h⟩ := h
  cases h1 : parse env n t ⟨ts, .callSite, none⟩ with
  | err e' =>
    simp only [parse2, h1, Res.bind_errc] at h
    cases h
    exact .inl ⟨n, h1⟩
  | ok v s' =>
    rcases (matches_parse2 env n t ts).2 e h with h2 | h2
    · obtain ⟨rest, left, hm, _⟩ := (parse_peg env n t _).1 v s' h1
      exact absurd h2 (not_both hm)
    · exact .inr h2
  | panic => simp [parse2, h1] at h
  | oof => simp [parse2, h1] at h

/-- A node that was read although something was left unread: without it nothing is wrong. -/
theorem unread_kept {env : Env} {t : Ty} {ts : List TT} {v : Val} {rest : List TT} {left l2 : Option Span} {sp : Span} (hv : Visible ts) (hm : Matches env t ts v rest left)
    (hu : FirstUnread rest l2) (he : left.or l2 = some sp) :
    ∃ a new x cur scope, ts = a ++ rest ∧ Shortened a new ∧ Reads false v new ∧ Keeps Eq ts .callSite (x :: cur) scope new ∧ x.span = sp := by
  obtain ⟨a, a', h1, h2, h3, h4, h5⟩ := matches_part hm hv
  cases left with
  | some l =>
    simp only [Option.some_or, Option.some.injEq] at he
    subst he
    obtain ⟨x, r, sc, e, hk⟩ := h5 _ rfl .callSite
    have := hk []
    rw [List.append_nil] at this
    exact ⟨a, a', x, r, sc, h1, h3, readsL_single.mp h2, this, e⟩
  | none =>
    rw [Option.none_or] at he
    subst he
    cases hu with
    | @token t r hn =>
      have hc := next_visible (by rw [h1] at hv; exact hv.right) hn
      subst hc
      refine ⟨a, a', t, r, .callSite, h1, h3, readsL_single.mp h2, ?_, rfl⟩
      rw [h1, h4 rfl]
      have := Keeps.here (Same := Eq) (before := a) (before' := a) (cur := t :: r) (new := []) (scope := .callSite) rfl
      rwa [List.append_nil] at this

/-- **C83**: if an input is rejected, then what comes before the reported place is the beginning of something that the grammar allows: there is a value `w` of the type, and
a token stream `new` that it stands for, which agrees with the input before that place.  (Where the parser did not read a group to its end before it went on, the unread
end of the group is left out of `new`: it would have been reported if nothing else had been wrong.)  Holds for every grammar all of whose types have values. -/
theorem C83_viable (laws : FloatLaws) {env : Env} {G : List Ty} (closed : ∀ t ∈ G, ∀ u, PartOf env u t → u ∈ G) (hP : Productive env G) {t : Ty} (ht : t ∈ G) {ts : List TT}
    (hv : Visible ts) {e : Err} (h : Rejects env t ts e) :
    ∃ w new cur scope, HasTy env t w ∧ Reads false w new ∧ Keeps Shortened ts .callSite cur scope new ∧ Blamed cur scope e.span := by
  rcases rejected_cases h with ⟨n, h⟩ | ⟨v, rest, left, l2, sp, hm, hu, he, rfl⟩
  · have K := kit_weak laws closed hP Shortened .nil (fun _ _ _ _ => shortened_append) fun u _ ts v rest left hv hm => read_shortened hv hm
    obtain ⟨cur, sc, w, new, hk, hl, hw⟩ := K.parse n t ht _ _ hv h
    exact ⟨w, new, cur, sc, hw.ty, hw.reads, hk.keeps, .expected hl⟩
  · obtain ⟨a, new, x, cur, sc, _, _, hr, hk, rfl⟩ := unread_kept hv hm hu he
    exact ⟨v, new, x :: cur, sc, matches_hasTy hm, hr, keeps_mono (fun a b e => e ▸ shortened_refl a) hk, .unread⟩

/-- **C83**, nothing being left out: in a grammar whose groups are always read to the end (such as lists `Bracket<Punctuated<..>>`). -/
theorem C83_exact (laws : FloatLaws) {env : Env} {G : List Ty} (closed : ∀ t ∈ G, ∀ u, PartOf env u t → u ∈ G) (hP : Productive env G) (hr : GroupsRead env G) {t : Ty}
    (ht : t ∈ G) {ts : List TT} (hv : Visible ts) {e : Err} (h : Rejects env t ts e) :
    ∃ w new cur scope, HasTy env t w ∧ Reads false w new ∧ Keeps Eq ts .callSite cur scope new ∧ Blamed cur scope e.span := by
  rcases rejected_cases h with ⟨n, h⟩ | ⟨v, rest, left, l2, sp, hm, hu, he, rfl⟩
  · have K := kit_weak laws closed hP Eq rfl (fun _ _ _ _ h1 h2 => by rw [h1, h2]) fun u hu ts v rest left hv hm => read_exact closed hr hu hv hm
    obtain ⟨cur, sc, w, new, hk, hl, hw⟩ := K.parse n t ht _ _ hv h
    exact ⟨w, new, cur, sc, hw.ty, hw.reads, hk.keeps, .expected hl⟩
  · obtain ⟨a, new, x, cur, sc, _, _, hr, hk, rfl⟩ := unread_kept hv hm hu he
    exact ⟨v, new, x :: cur, sc, matches_hasTy hm, hr, hk, .unread⟩

/-- **C83**, in every grammar and without any exception: if the node itself was read and the only complaint is that something was left unread, then the tokens before the
first unread one, without it and what follows it in its group, stand for exactly the node that was read. -/
theorem C83_unread {env : Env} {t : Ty} {ts : List TT} {v : Val} {s' : PState} {e : Err} (hv : Visible ts) (hp : Parses env t ⟨ts, .callSite, none⟩ v s')
    (h : Rejects env t ts e) : ∃ new x cur scope, Reads false v new ∧ Keeps Eq ts .callSite (x :: cur) scope new ∧ e.span = x.span := by
  obtain ⟨m, hp⟩ := hp
  obtain ⟨rest, left, hm, _⟩ := (parse_peg env m t _).1 v s' hp
  rcases rejected_cases h with ⟨n, h⟩ | ⟨v', rest', left', l2, sp, hm', hu, he, rfl⟩
  · exact absurd ((parse_peg env n t _).2 _ h) (not_both hm)
  · obtain ⟨rfl, rfl, rfl⟩ := (C63_deterministic hm).1 _ _ _ hm'
    obtain ⟨a, new, x, cur, sc, _, _, hr, hk, rfl⟩ := unread_kept hv hm hu he
    exact ⟨new, x, cur, sc, hr, hk, rfl⟩

/-- **C83** in an LL(1) grammar: `new` is accepted.  So an input that was rejected can be repaired by changing only what comes at or after the reported place. -/
theorem C83_repair (laws : FloatLaws) (signs : SignLaws) {env : Env} {G : List Ty} {n : Nat} (hG : ll1 env G n = true) (hj : separable env G n = true) (hS : Samples env G)
    {t : Ty} (ht : t ∈ G) (he : closesAtEnd env G n t = true) {ts : List TT} (hv : Visible ts) (hord : Ordinary ts) (hz : NoMinusZero ts) (ho : NoOverflow ts) {e : Err}
    (h : Rejects env t ts e) : ∃ w new cur scope, Accepts env t new w ∧ Keeps Shortened ts .callSite cur scope new ∧ Blamed cur scope e.span := by
  have closed := (grammar_of_ll1 laws hG).closed
  have hf : Fine ts := by have := fine_of_ordinary hord hz; rwa [dissolve_visible hv] at this
  have fin : ∀ {w new}, HasTy env t w → Reads false w new → Survives w → Printable w → Fine new → Accepts env t new w := by
    intro w new h1 h2 h3 h4 h5
    obtain ⟨o1, o2⟩ := ordinary_of_fine h5
    refine (C76_language laws signs hG ht he hj o1 o2 ?_).mpr ⟨h1, h3, by rwa [dissolve_visible h5.vis]⟩
    obtain ⟨out, ho⟩ := (C38_value_prints_iff h1).mpr h4
    rw [ho]; simp
  rcases rejected_cases h with ⟨m, h⟩ | ⟨v, rest, left, l2, sp, hm, hu, he', rfl⟩
  · have K := kit_strong laws closed hS Shortened .nil (fun _ _ _ _ => shortened_append) (fun _ _ h => h) fun u _ ts v rest left hv hm => read_shortened hv hm
    obtain ⟨cur, sc, w, new, hk, hl, hw⟩ := K.parse m t ht _ _ ⟨hf, ho⟩ h
    exact ⟨w, new, cur, sc, fin hw.ty hw.reads (hw.fit trivial).1 (hw.fit trivial).2 (hk.fine (fun _ _ h => h) hf), hk.keeps, .expected hl⟩
  · obtain ⟨a, new, x, cur, sc, ha, hs, hr, hk, rfl⟩ := unread_kept hv hm hu he'
    refine ⟨v, new, x :: cur, sc, fin (matches_hasTy hm) hr ?_ ?_ (fine_shortened hs (ha ▸ hf).left), keeps_mono (fun a b e => e ▸ shortened_refl a) hk, .unread⟩
    · exact matches_survives hm (matches_nozero hm (by rwa [dissolve_visible hv]))
    · exact reads_printable v false new hr (noOverflow_shortened (noOverflow_left (ha ▸ ho)) hs) (leaves_plain closed hS ht (matches_hasTy hm))

/-- **C83** in an LL(1) grammar whose groups are read to the end. -/
theorem C83_repair_exact (laws : FloatLaws) (signs : SignLaws) {env : Env} {G : List Ty} {n : Nat} (hG : ll1 env G n = true) (hj : separable env G n = true)
    (hS : Samples env G) (hr : GroupsRead env G) {t : Ty} (ht : t ∈ G) (he : closesAtEnd env G n t = true) {ts : List TT} (hv : Visible ts) (hord : Ordinary ts)
    (hz : NoMinusZero ts) (ho : NoOverflow ts) {e : Err} (h : Rejects env t ts e) :
    ∃ w new cur scope, Accepts env t new w ∧ Keeps Eq ts .callSite cur scope new ∧ Blamed cur scope e.span := by
  have closed := (grammar_of_ll1 laws hG).closed
  have hf : Fine ts := by have := fine_of_ordinary hord hz; rwa [dissolve_visible hv] at this
  have fin : ∀ {w new}, HasTy env t w → Reads false w new → Survives w → Printable w → Fine new → Accepts env t new w := by
    intro w new h1 h2 h3 h4 h5
    obtain ⟨o1, o2⟩ := ordinary_of_fine h5
    refine (C76_language laws signs hG ht he hj o1 o2 ?_).mpr ⟨h1, h3, by rwa [dissolve_visible h5.vis]⟩
    obtain ⟨out, ho⟩ := (C38_value_prints_iff h1).mpr h4
    rw [ho]; simp
  rcases rejected_cases h with ⟨m, h⟩ | ⟨v, rest, left, l2, sp, hm, hu, he', rfl⟩
  · have K := kit_strong laws closed hS Eq rfl (fun _ _ _ _ h1 h2 => by rw [h1, h2]) (fun a b h => h ▸ shortened_refl a) fun u hu ts v rest left hv hm => read_exact closed hr hu hv hm
    obtain ⟨cur, sc, w, new, hk, hl, hw⟩ := K.parse m t ht _ _ ⟨hf, ho⟩ h
    exact ⟨w, new, cur, sc, fin hw.ty hw.reads (hw.fit trivial).1 (hw.fit trivial).2 (KeepsF.fine (Same := Eq) (fun a b h => by rw [h]; exact shortened_refl b) hk hf), hk.keeps, .expected hl⟩
  · obtain ⟨a, new, x, cur, sc, ha, hs, hr, hk, rfl⟩ := unread_kept hv hm hu he'
    refine ⟨v, new, x :: cur, sc, fin (matches_hasTy hm) hr ?_ ?_ (fine_shortened hs (ha ▸ hf).left), hk, .unread⟩
    · exact matches_survives hm (matches_nozero hm (by rwa [dissolve_visible hv]))
    · exact reads_printable v false new hr (noOverflow_shortened (noOverflow_left (ha ▸ ho)) hs) (leaves_plain closed hS ht (matches_hasTy hm))

/-- **C83** for source texts: the same for a text that `from_str` rejects although it can be split into tokens. -/
theorem C83_source (laws : FloatLaws) (signs : SignLaws) {env : Env} {G : List Ty} {n : Nat} {f : Option Ext.F} (hG : ll1 env G n = true) (hj : separable env G n = true)
    {k : Nat} (hS : samples env f G k = true) {t : Ty} (ht : t ∈ G) (he : closesAtEnd env G n t = true) {src : Text} {ts : List TT} (hl : lex src = some ts) (hz : NoMinusZero ts)
    (ho : NoOverflow ts) {e : Err} {m : Nat} (h : parseStr (parse env m t) src = .err e) :
    ∃ w new cur scope, Accepts env t new w ∧ Keeps Shortened ts .callSite cur scope new ∧ Blamed cur scope e.span := by
  simp only [parseStr, hl] at h
  exact C83_repair laws signs hG hj (samples_sound hS) ht he (lexed_ordinary hl).2 (lexed_ordinary hl).1 hz ho ⟨m, h⟩

mutual
/-- `NoOverflow`, for a token, as a check. -/
def smallT : TT → Bool
  | .group _ i _ => small i
  | .lit r _ =>
    let ok := fun d => match Ext.floatOf d with | some x => Ext.finite x | none => true
    (match readLit r with | some (.float d) => ok d | _ => true) && (match readFloatDigits ('-' :: r) with | some d => ok d | none => true)
  | .ident _ _ => true
  | .punct _ _ _ => true
/-- `NoOverflow`, as a check. -/
def small : List TT → Bool
  | [] => true
  | t :: ts => smallT t && small ts
end

mutual
theorem smallT_sound : ∀ {t : TT}, smallT t = true → NoOverflow [t]
  | .group d ts sp, h, r, s, ho => by
    cases ho with
    | inside ho => exact small_sound (ts := ts) h r s ho
    | tail ho => cases ho
  | .lit r sp, h, r', s, ho => by
    cases ho with
    | head =>
      intro d x hd hx
      simp only [smallT, Bool.and_eq_true] at h
      rcases hd with hd | hd
      · have := h.1
        simp only [hd, hx] at this
        exact this
      · have := h.2
        simp only [hd, hx] at this
        exact this
    | tail ho => cases ho
  | .ident _ _, _, r, s, ho => by
    cases ho with
    | tail ho => cases ho
  | .punct _ _ _, _, r, s, ho => by
    cases ho with
    | tail ho => cases ho
theorem small_sound : ∀ {ts : List TT}, small ts = true → NoOverflow ts
  | [], _, _, _, ho => by cases ho
  | t :: ts, h, r, s, ho => by
    simp only [small, Bool.and_eq_true] at h
    exact (occurs_append_or (a := [t]) ho).elim (smallT_sound h.1 r s) (small_sound h.2 r s)
end

/-- **C83** for the JSON-like language of README.md (`x` is some floating point number that is written without a sign): nothing before the place of an error has to be
changed. -/
theorem C83_json (laws : FloatLaws) (signs : SignLaws) {x : Ext.F} (hx : samples jsonEnv (some x) jsonTypes 8 = true) {ts : List TT} (hv : Visible ts) (hord : Ordinary ts)
    (hz : NoMinusZero ts) (ho : NoOverflow ts) {e : Err} (h : Rejects jsonEnv (user "Value") ts e) :
    ∃ w new cur scope, Accepts jsonEnv (user "Value") new w ∧ Keeps Eq ts .callSite cur scope new ∧ Blamed cur scope e.span :=
  C83_repair_exact laws signs json_checks.1 json_separable (samples_sound hx) (groupsRead_sound (n := 8) (by decide +kernel)) json_checks.2.2.1 json_checks.2.2.2 hv hord hz ho h

end

/-! ### the hypotheses are met -/

section
attribute [local instance] signExt

theorem sum_samples : samples sumEnv none sumTypes 8 = true := by decide +kernel
theorem json_samples : samples jsonEnv (some (false, some 1)) jsonTypes 8 = true := by decide +kernel

/-- `[1, ;]` -/
def badJson : List TT := [.group .bracket [.lit "1".toList (spAt 1 2), .punct ',' .alone (spAt 2 3), .punct ';' .alone (spAt 4 5)] (spAt 0 6)]

theorem badJson_ordinary : Ordinary badJson ∧ Visible badJson ∧ NoMinusZero badJson ∧ NoOverflow badJson := by
  have hl : lex "[1, ;]".toList = some badJson := rfl
  refine ⟨(lexed_ordinary hl).1, (lexed_ordinary hl).2, noMinusZero_of_B (by decide +kernel), small_sound (by decide +kernel)⟩

theorem badJson_rejected : ∃ e, Rejects jsonEnv (user "Value") badJson e ∧ e.span = spAt 4 5 := ⟨_, ⟨20, rfl⟩, rfl⟩

example : ∃ e w new cur scope, Rejects jsonEnv (user "Value") badJson e ∧ Accepts jsonEnv (user "Value") new w ∧ Keeps Eq badJson .callSite cur scope new ∧ Blamed cur scope e.span := by
  obtain ⟨e, h, _⟩ := badJson_rejected
  obtain ⟨h1, h2, h3, h4⟩ := badJson_ordinary
  obtain ⟨w, new, cur, sc, h⟩ := C83_json signExt_laws signExt_signs json_samples h2 h1 h3 h4 h
  exact ⟨e, w, new, cur, sc, ‹_›, h⟩

/-- `(1 +) * 2` -/
def badSum : List TT := [.group .paren [.lit "1".toList (spAt 1 2), .punct '+' .alone (spAt 3 4)] (spAt 0 5), .punct '*' .alone (spAt 6 7), .lit "2".toList (spAt 8 9)]

theorem badSum_lex : lex "(1 +) * 2".toList = some badSum := rfl

theorem badSum_rejected : ∃ e, Rejects sumEnv (.named "Sum".toList) badSum e ∧ e.span = (spAt 0 5).closeOf := ⟨_, ⟨20, rfl⟩, rfl⟩

/-- It is rejected at the closing parenthesis. -/
example : ∃ (e : Err) (w : Val) (new cur : List TT) (scope : Span), e.span = (spAt 0 5).closeOf ∧ Accepts sumEnv (.named "Sum".toList) new w ∧ Keeps Shortened badSum .callSite cur scope new ∧ Blamed cur scope e.span := by
  obtain ⟨e, ⟨m, h⟩, he⟩ := badSum_rejected
  obtain ⟨w, new, cur, sc, h⟩ := C83_source signExt_laws signExt_signs (m := m) sum_checks.1 sum_checks.2.2.1 sum_samples sum_checks.2.2.2.1 sum_checks.2.2.2.2 badSum_lex
    (noMinusZero_of_B (by decide +kernel)) (small_sound (by decide +kernel)) (by simp only [parseStr, badSum_lex]; exact h)
  exact ⟨e, w, new, cur, sc, he, h⟩

/-- The same without any of the checks for ambiguities: `(1 +) * 2` begins like a sum. -/
example : ∃ e w new cur scope, Rejects sumEnv (.named "Sum".toList) badSum e ∧ HasTy sumEnv (.named "Sum".toList) w ∧ Reads false w new ∧
    Keeps Shortened badSum .callSite cur scope new ∧ Blamed cur scope e.span := by
  obtain ⟨e, h, _⟩ := badSum_rejected
  obtain ⟨w, new, cur, sc, h1⟩ := C83_viable signExt_laws (grammar_of_ll1 signExt_laws sum_checks.1).closed (productive_of_samples (samples_sound sum_samples)) sum_checks.2.2.2.1
    (lexed_ordinary badSum_lex).2 h
  exact ⟨e, w, new, cur, sc, h, h1⟩

/-- ... and `[1, ;]` like a JSON value. -/
example : ∃ e w new cur scope, Rejects jsonEnv (user "Value") badJson e ∧ HasTy jsonEnv (user "Value") w ∧ Reads false w new ∧
    Keeps Eq badJson .callSite cur scope new ∧ Blamed cur scope e.span := by
  obtain ⟨e, h, _⟩ := badJson_rejected
  obtain ⟨w, new, cur, sc, h1⟩ := C83_exact signExt_laws (grammar_of_ll1 signExt_laws json_checks.1).closed (productive_of_samples (samples_sound json_samples))
    (groupsRead_sound (n := 8) (by decide +kernel)) json_checks.2.2.1 badJson_ordinary.2.1 h
  exact ⟨e, w, new, cur, sc, h, h1⟩

/-- `(1 2)` -/
def unreadSum : List TT := [.group .paren [.lit "1".toList (spAt 1 2), .lit "2".toList (spAt 3 4)] (spAt 0 5)]

/-- `(1 2)` is rejected at the `2`, and `(1)` is what was read. -/
example : ∃ e v new x cur scope, Rejects sumEnv (.named "Sum".toList) unreadSum e ∧ Reads false v new ∧ Keeps Eq unreadSum .callSite (x :: cur) scope new ∧
    e.span = x.span ∧ e.span = spAt 3 4 := by
  have h : ∃ e, Rejects sumEnv (.named "Sum".toList) unreadSum e ∧ e.span = spAt 3 4 := ⟨_, ⟨20, rfl⟩, rfl⟩
  have hp : ∃ v s, Parses sumEnv (.named "Sum".toList) ⟨unreadSum, .callSite, none⟩ v s := ⟨_, _, ⟨20, rfl⟩⟩
  obtain ⟨e, h, he⟩ := h
  obtain ⟨v, s, hp⟩ := hp
  have hl : lex "(1 2)".toList = some unreadSum := rfl
  obtain ⟨new, x, cur, sc, h1, h2, h3⟩ := C83_unread (lexed_ordinary hl).2 hp h
  exact ⟨e, v, new, x, cur, sc, h, h1, h2, h3, he⟩

/-! ### the exception is needed -/

/-- `struct P(Paren<Ident>, Token![;])` -/
def parenEnv : Env := fun x => if x = "P".toList then .struct (tys [.paren (.leaf .rustIdent), .leaf (.punct ";".toList)]) else .enum []

/-- `(x y) z` -/
def parenTokens : List TT := [.group .paren [.ident "x".toList (spAt 1 2), .ident "y".toList (spAt 3 4)] (spAt 0 5), .ident "z".toList (spAt 6 7)]

/-- `(x y) z` is rejected at the `z` although the actual mistake is before it, and it cannot be repaired without changing that: the parser looks at the unread `y` only
after it has read everything else. -/
theorem C83_shortened_needed : (∃ e, Rejects parenEnv (.named "P".toList) parenTokens e ∧ e.span = spAt 6 7) ∧
    ¬ ∃ w new, HasTy parenEnv (.named "P".toList) w ∧ Reads false w new ∧ Keeps Eq parenTokens .callSite [.ident "z".toList (spAt 6 7)] .callSite new := by
  refine ⟨⟨_, ⟨10, rfl⟩, rfl⟩, ?_⟩
  rintro ⟨w, new, hw, hr, hk⟩
  have flat : ∀ {ts cur new : List TT} {sc sc' : Span}, (∀ d i sp, .group d i sp ∉ ts) → Keeps Eq ts sc cur sc' new → ∃ a, ts = a ++ cur := by
    intro ts cur new sc sc' hn h
    cases h with
    | here _ => exact ⟨_, rfl⟩
    | into _ _ => exact absurd (List.mem_append.mpr (.inr (List.mem_cons_self ..))) (hn _ _ _)
  have hnew : ∃ more, new = .group .paren [.ident "x".toList (spAt 1 2), .ident "y".toList (spAt 3 4)] (spAt 0 5) :: more := by
    generalize hq : parenTokens = q at hk
    generalize hc : [TT.ident "z".toList (spAt 6 7)] = c at hk
    cases hk with
    | @here a a' _ _ _ e =>
      subst e hc
      have : a = [.group .paren [.ident "x".toList (spAt 1 2), .ident "y".toList (spAt 3 4)] (spAt 0 5)] :=
        (List.append_cancel_right (as := [TT.group .paren [.ident "x".toList (spAt 1 2), .ident "y".toList (spAt 3 4)] (spAt 0 5)]) hq).symm
      subst this
      exact ⟨_, rfl⟩
    | @into a a' d i sp r _ _ _ more _ e h =>
      subst hc
      exfalso
      rcases a with _ | ⟨t, _ | ⟨t', a⟩⟩
      · simp only [parenTokens, List.nil_append, List.cons.injEq, TT.group.injEq] at hq
        obtain ⟨⟨_, rfl, _⟩, _⟩ := hq
        obtain ⟨b, hb⟩ := flat (by simp) h
        have := congrArg List.getLast? hb
        rw [List.getLast?_concat] at this
        simp at this
      · simp [parenTokens] at hq
      · simp [parenTokens] at hq
  obtain ⟨more, rfl⟩ := hnew
  cases hw with
  | struct hx hs =>
    cases hx
    cases hs with
    | cons h1 hs =>
      cases h1 with
      | paren h1 =>
        cases h1 with
        | leaf h1 =>
          obtain ⟨a, b, i, j, e, hr, _, hij⟩ := hr
          obtain ⟨a1, b1, i1, rfl, ⟨rfl, hl⟩, hi⟩ := hr
          simp only [List.cons_append, List.nil_append, List.cons.injEq, TT.group.injEq] at e
          have hb : b1 = [] := by cases b1 <;> simp_all
          subst hb
          obtain ⟨⟨_, e, _⟩, _⟩ := e
          cases hl <;> simp at e
  | enum hx _ _ => cases hx
end

end Parsel
