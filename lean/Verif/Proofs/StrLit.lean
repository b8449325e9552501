import Verif.Proofs.StrText

/-! String, character and byte literals: the tokens and their values. -/

namespace Parsel

open Spec

/-! ### suffixes -/

theorem suffix_iff (s : Text) : literalSuffix s = [] ↔ suffixOk s = true := by
  unfold literalSuffix suffixOk
  cases s with
  | nil => simp [lexPlainIdent]
  | cons c cs =>
    simp only [lexPlainIdent]
    by_cases h : identStart c = true
    · simp only [h, if_true, Bool.true_and]
      induction cs with
      | nil => simp
      | cons d cs ih =>
        simp only [List.dropWhile, List.all_cons]
        cases hd : identCont d with
        | true => simpa using ih
        | false => simp
    · simp [h]

theorem suffix_quote {s : Text} (h : suffixOk s = true) : '"' ∉ s := by
  cases s with
  | nil => simp
  | cons c cs =>
    simp only [suffixOk, Bool.and_eq_true, List.all_eq_true] at h
    intro hm
    rcases List.mem_cons.mp hm with e | hm
    · subst e; exact absurd h.1 (by decide)
    · exact absurd (h.2 _ hm) (by decide)

/-! ### raw strings -/

theorem rawOpen_pounds : ∀ (j n : Nat) (s : Text), n + j ≤ 255 → rawOpen n (List.replicate j '#' ++ '"' :: s) = some (n + j, s)
  | 0, n, s, h => by simp [rawOpen]; omega
  | j + 1, n, s, h => by
    rw [List.replicate_succ, List.cons_append, rawOpen, if_neg (by decide), if_pos rfl, rawOpen_pounds j (n + 1) s (by omega)]
    congr 2; omega

theorem rawOpen_inv : ∀ {n : Nat} {s : Text} {r : Nat × Text}, rawOpen n s = some r →
    ∃ j, r.1 = n + j ∧ s = List.replicate j '#' ++ '"' :: r.2 ∧ r.1 ≤ 255
  | n, [], r, h => by cases h
  | n, c :: s, r, h => by
    rw [rawOpen] at h
    split at h
    · rename_i e
      split at h
      · cases h; exact ⟨0, rfl, by rw [e]; rfl, by assumption⟩
      · cases h
    · split at h
      · rename_i e
        obtain ⟨j, h1, h2, h3⟩ := rawOpen_inv h
        exact ⟨j + 1, by omega, by rw [e, h2]; rfl, h3⟩
      · cases h

theorem Spec.RawBody.tail {byte : Bool} {n : Nat} {c : Char} {x : Text} (h : RawBody byte n (c :: x)) : RawBody byte n x :=
  ⟨fun a b e => h.open_ (c :: a) b (by rw [e]; rfl), fun a b e => h.cr (c :: a) b (by rw [e]; rfl), fun hb d hd => h.ascii hb d (List.mem_cons_of_mem _ hd)⟩

theorem kind_not_c (byte : Bool) : kindOf byte ≠ .cStr := by cases byte <;> decide

theorem kind_byte {byte : Bool} (h : kindOf byte = .byteStr) : byte = true := by cases byte <;> simp [kindOf] at h ⊢

theorem scanRaw_body {byte : Bool} {n : Nat} : ∀ (m : Nat) {x : Text}, x.length ≤ m → RawBody byte n x → ∀ rest,
    scanRaw (kindOf byte) n (x ++ '"' :: (List.replicate n '#' ++ rest)) = some rest
  | _, [], _, _, rest => by rw [List.nil_append, scanRaw_quote, stripPrefix_append_self]
  | 0, _ :: _, hm, _, _ => by simp at hm
  | m + 1, c :: x, hm, h, rest => by
    simp only [List.length_cons] at hm
    have ih := scanRaw_body m (x := x) (by omega) h.tail rest
    rw [List.cons_append]
    by_cases hq : c = '"'
    · subst hq
      have hs : stripPrefix (List.replicate n '#') x = none := by
        cases hs : stripPrefix (List.replicate n '#') x with
        | none => rfl
        | some q => exact absurd (by rw [stripPrefix_eq hs]; rfl) (h.open_ [] q)
      rw [scanRaw_quote, stripPrefix_none hs (by intro c hc hm; simp at hc; subst hc; simp at hm)]
      exact ih
    · by_cases hr : c = '\r'
      · subst hr
        have := h.cr [] x rfl
        cases x with
        | nil => cases this
        | cons d x =>
          simp only [List.head?_cons, Option.some.injEq] at this
          subst this
          simp only [List.length_cons] at hm
          rw [List.cons_append, scanRaw_crlf]
          exact scanRaw_body m (by omega) h.tail.tail rest
      · rw [scanRaw_other _ _ _ _ hq hr, if_neg]
        · exact ih
        · rintro (⟨h1, h2⟩ | ⟨h1, _⟩)
          · have := h.ascii (kind_byte h1) c List.mem_cons_self
            omega
          · exact kind_not_c byte h1

theorem Spec.RawBody.cons {byte : Bool} {n : Nat} {c : Char} {x : Text} (h : RawBody byte n x) (hq : c = '"' → ∀ b, x ≠ List.replicate n '#' ++ b)
    (hr : c = '\r' → x.head? = some '\n') (ha : byte = true → c.toNat < 128) : RawBody byte n (c :: x) := by
  refine ⟨fun a b e => ?_, fun a b e => ?_, fun hb d hd => ?_⟩
  · cases a with
    | nil => injection e with e1 e2; exact hq e1 b e2
    | cons d a => injection e with e1 e2; exact h.open_ a b e2
  · cases a with
    | nil => injection e with e1 e2; rw [← e2]; exact hr e1
    | cons d a => injection e with e1 e2; exact h.cr a b e2
  · rcases List.mem_cons.mp hd with rfl | hd
    · exact ha hb
    · exact h.ascii hb d hd

theorem scanRaw_inv {byte : Bool} {n : Nat} {r : Text} : ∀ (m : Nat) {s : Text}, s.length ≤ m → scanRaw (kindOf byte) n s = some r →
    ∃ x, s = x ++ '"' :: (List.replicate n '#' ++ r) ∧ RawBody byte n x
  | _, [], _, h => by simp [scanRaw] at h
  | 0, _ :: _, hm, _ => by simp at hm
  | m + 1, c :: s, hm, h => by
    simp only [List.length_cons] at hm
    by_cases hq : c = '"'
    · subst hq
      rw [scanRaw_quote] at h
      cases hs : stripPrefix (List.replicate n '#') s with
      | some q =>
        rw [hs] at h
        cases h
        exact ⟨[], by rw [stripPrefix_eq hs]; rfl, ⟨fun a b e => by simp at e, fun a b e => by simp at e, fun _ c hc => by simp at hc⟩⟩
      | none =>
        rw [hs] at h
        obtain ⟨x, e, hx⟩ := scanRaw_inv m (by omega) h
        refine ⟨'"' :: x, by rw [e]; rfl, hx.cons (fun _ b hb => ?_) (fun h => by cases h) (fun _ => by decide)⟩
        rw [e, hb, List.append_assoc, stripPrefix_append_self] at hs
        cases hs
    · by_cases hr : c = '\r'
      · subst hr
        by_cases hn : s.head? = some '\n'
        · cases s with
          | nil => cases hn
          | cons d s =>
            simp only [List.head?_cons, Option.some.injEq] at hn
            subst hn
            simp only [List.length_cons] at hm
            rw [scanRaw_crlf] at h
            obtain ⟨x, e, hx⟩ := scanRaw_inv m (by omega) h
            exact ⟨'\r' :: '\n' :: x, by rw [e]; rfl,
              (hx.cons (fun h => by cases h) (fun h => by cases h) (fun _ => by decide)).cons (fun h => by cases h) (fun _ => rfl) (fun _ => by decide)⟩
        · rw [scanRaw_cr _ _ _ hn] at h; cases h
      · rw [scanRaw_other _ _ _ _ hq hr] at h
        split at h
        · cases h
        · rename_i hc
          obtain ⟨x, e, hx⟩ := scanRaw_inv m (by omega) h
          refine ⟨c :: x, by rw [e]; rfl, hx.cons (fun h => absurd h hq) (fun h => absurd h hr) (fun hb => ?_)⟩
          subst hb
          by_cases hl : 127 < c.toNat
          · exact absurd (.inl ⟨rfl, hl⟩) hc
          · omega

theorem takeWhile_halt {p : Char → Bool} : ∀ {a : Text} {d : Char} (z : Text), (∀ c ∈ a, p c = true) → p d = false → (a ++ d :: z).takeWhile p = a
  | [], d, z, _, hd => by simp [List.takeWhile, hd]
  | c :: a, d, z, ha, hd => by
    rw [List.cons_append, List.takeWhile, ha c List.mem_cons_self]
    simp only
    rw [takeWhile_halt z (fun e he => ha e (List.mem_cons_of_mem _ he)) hd]

theorem rawBody_eq {n : Nat} {x suf : Text} (h : '"' ∉ suf) :
    rawBody (List.replicate n '#' ++ '"' :: (x ++ '"' :: (List.replicate n '#' ++ suf))) = some x := by
  have h1 : (List.replicate n '#' ++ '"' :: (x ++ '"' :: (List.replicate n '#' ++ suf))).takeWhile (· = '#') = List.replicate n '#' :=
    takeWhile_halt _ (by intro c hc; simp at hc; simp [hc.2]) (by decide)
  have h2 : (x ++ '"' :: (List.replicate n '#' ++ suf)).reverse.takeWhile (· ≠ '"') = (List.replicate n '#' ++ suf).reverse := by
    rw [List.reverse_append, List.reverse_cons, List.append_assoc, List.singleton_append]
    refine takeWhile_halt _ ?_ (by decide)
    intro c hc
    simp only [List.mem_reverse, List.mem_append, List.mem_replicate] at hc
    simp only [ne_eq, decide_not, Bool.not_eq_true', decide_eq_false_iff_not]
    rintro rfl
    rcases hc with hc | hc
    · exact absurd hc.2 (by decide)
    · exact h hc
  unfold rawBody
  simp only [h1, h2, List.length_replicate]
  have h3 : (List.replicate n '#' ++ '"' :: (x ++ '"' :: (List.replicate n '#' ++ suf))).drop n = '"' :: (x ++ '"' :: (List.replicate n '#' ++ suf)) := by
    have := List.drop_left (l₁ := List.replicate n '#') (l₂ := '"' :: (x ++ '"' :: (List.replicate n '#' ++ suf)))
    rwa [List.length_replicate] at this
  rw [h3]
  simp only
  have h4 : (x ++ '"' :: (List.replicate n '#' ++ suf)).length - 1 - (List.replicate n '#' ++ suf).reverse.length = x.length := by
    simp
    omega
  rw [h2, h4]
  have h5 : (x ++ '"' :: (List.replicate n '#' ++ suf)).drop (x.length + 1) = List.replicate n '#' ++ suf := by
    rw [← List.drop_drop, List.drop_left]
    rfl
  rw [h5, List.take_left]
  have h6 : (List.replicate n '#' ++ suf).take n = List.replicate n '#' := by
    have := List.take_left (l₁ := List.replicate n '#') (l₂ := suf)
    rwa [List.length_replicate] at this
  rw [h6, if_pos ⟨by simp, rfl⟩]

theorem mapM_bytes : ∀ {x : Text}, (∀ c ∈ x, c.toNat < 128) → ∃ v : List Byte, x.mapM byteOfChar = some v ∧ v.map Fin.val = x.map Char.toNat
  | [], _ => ⟨[], rfl, rfl⟩
  | c :: x, h => by
    obtain ⟨v, h1, h2⟩ := mapM_bytes fun d hd => h d (List.mem_cons_of_mem _ hd)
    have hc := h c List.mem_cons_self
    refine ⟨⟨c.toNat, by omega⟩ :: v, ?_, by rw [List.map_cons, h2]; rfl⟩
    rw [List.mapM_cons, h1, byteOfChar, dif_pos (by omega)]
    rfl

/-! ### string literals -/

theorem lexCooked_iff {byte : Bool} {s : Text} : lexCooked (kindOf byte) s = some [] ↔ ∃ x ns suf, s = x ++ '"' :: suf ∧ StrBody byte x ns ∧ suffixOk suf = true := by
  unfold lexCooked
  constructor
  · intro h
    obtain ⟨q, h1, h2⟩ := Option.map_eq_some_iff.mp h
    obtain ⟨x, ns, e, hx⟩ := scan_inv _ (Nat.le_refl _) h1
    exact ⟨x, ns, q, e, hx, (suffix_iff q).mp h2⟩
  · rintro ⟨x, ns, suf, rfl, hx, hs⟩
    rw [scan_body hx, Option.map_some, (suffix_iff suf).mpr hs]

theorem lexRaw_iff {byte : Bool} {s : Text} : lexRaw (kindOf byte) s = some [] ↔
    ∃ n x suf, s = List.replicate n '#' ++ '"' :: (x ++ '"' :: (List.replicate n '#' ++ suf)) ∧ n ≤ 255 ∧ RawBody byte n x ∧ suffixOk suf = true := by
  unfold lexRaw
  constructor
  · intro h
    obtain ⟨⟨n, s'⟩, h1, h2⟩ := Option.bind_eq_some_iff.mp h
    obtain ⟨q, h3, h4⟩ := Option.map_eq_some_iff.mp h2
    obtain ⟨j, e1, e2, e3⟩ := rawOpen_inv h1
    obtain ⟨x, e, hx⟩ := scanRaw_inv _ (Nat.le_refl _) h3
    simp only at e1 e2 e3 e hx
    have : j = n := by omega
    subst this
    exact ⟨j, x, q, by rw [e2, e], e3, hx, (suffix_iff q).mp h4⟩
  · rintro ⟨n, x, suf, rfl, hn, hx, hs⟩
    rw [rawOpen_pounds n 0 _ (by omega), Option.bind_some]
    simp only [Nat.zero_add]
    rw [scanRaw_body _ (Nat.le_refl _) hx, Option.map_some, (suffix_iff suf).mpr hs]

theorem strLit_iff (r v : Text) : (lexLiteral r = some [] ∧ readLit r = some (.str v)) ↔ StrLit false r (v.map Char.toNat) := by
  have inj : ∀ {a b : Text}, a.map Char.toNat = b.map Char.toNat → a = b := by
    intro a b h
    refine (List.map_inj_right ?_).mp h
    intro x y h
    exact Char.toNat_inj.mp h
  constructor
  · rintro ⟨hl, hr⟩
    unfold readLit at hr
    split at hr
    · rename_i cs
      obtain ⟨x, ns, suf, rfl, hx, hs⟩ := lexCooked_iff (byte := false).mp hl
      obtain ⟨w, hw, e⟩ := cookStr_body hx suf
      rw [e] at hr
      cases hr
      rw [hw]
      exact .cooked hx hs
    · rename_i cs
      obtain ⟨n, x, suf, rfl, hn, hx, hs⟩ := lexRaw_iff (byte := false).mp hl
      rw [rawBody_eq (suffix_quote hs)] at hr
      cases hr
      exact .raw hn hx hs
    · obtain ⟨_, _, h⟩ := Option.map_eq_some_iff.mp hr; cases h
    · obtain ⟨_, _, h⟩ := Option.bind_eq_some_iff.mp hr
      obtain ⟨_, _, h⟩ := Option.map_eq_some_iff.mp h; cases h
    · obtain ⟨_, _, h⟩ := Option.bind_eq_some_iff.mp hr
      split at h
      · obtain ⟨_, _, h⟩ := Option.map_eq_some_iff.mp h; cases h
      · cases h
    · cases hr
    · obtain ⟨_, _, h⟩ := Option.bind_eq_some_iff.mp hr
      split at h <;> cases h
    · split at hr
      · cases hr
      · split at hr
        · cases hr
        · obtain ⟨_, _, h⟩ := Option.map_eq_some_iff.mp hr; cases h
  · generalize hm : v.map Char.toNat = ms
    intro h
    cases h with
    | cooked hx hs =>
      obtain ⟨w, hw, e⟩ := cookStr_body hx _
      obtain rfl := inj (hw.trans hm.symm)
      refine ⟨lexCooked_iff (byte := false).mpr ⟨_, _, _, rfl, hx, hs⟩, ?_⟩
      show (cookStr .plain _).map _ = _
      rw [e]
      rfl
    | raw hn hx hs =>
      obtain rfl := inj hm
      refine ⟨lexRaw_iff (byte := false).mpr ⟨_, _, _, rfl, hn, hx, hs⟩, ?_⟩
      show (rawBody _).map _ = _
      rw [rawBody_eq (suffix_quote hs)]
      rfl

theorem byteStrLit_iff (r : Text) (v : List Byte) : (lexLiteral r = some [] ∧ readLit r = some (.byteStr v)) ↔ StrLit true r (v.map Fin.val) := by
  have inj : ∀ {a b : List Byte}, a.map Fin.val = b.map Fin.val → a = b := by
    intro a b h
    refine (List.map_inj_right ?_).mp h
    intro x y h
    exact Fin.ext h
  constructor
  · rintro ⟨hl, hr⟩
    unfold readLit at hr
    split at hr
    · obtain ⟨_, _, h⟩ := Option.map_eq_some_iff.mp hr; cases h
    · obtain ⟨_, _, h⟩ := Option.map_eq_some_iff.mp hr; cases h
    · rename_i cs
      obtain ⟨x, ns, suf, rfl, hx, hs⟩ := lexCooked_iff (byte := true).mp hl
      obtain ⟨w, hw, e⟩ := cookBytes_body hx suf
      rw [e] at hr
      cases hr
      rw [hw]
      exact .cooked hx hs
    · rename_i cs
      obtain ⟨n, x, suf, rfl, hn, hx, hs⟩ := lexRaw_iff (byte := true).mp hl
      rw [rawBody_eq (suffix_quote hs), Option.bind_some] at hr
      obtain ⟨w, h1, h2⟩ := mapM_bytes (hx.ascii rfl)
      rw [h1] at hr
      cases hr
      rw [h2]
      exact .raw hn hx hs
    · obtain ⟨_, _, h⟩ := Option.bind_eq_some_iff.mp hr
      split at h
      · obtain ⟨_, _, h⟩ := Option.map_eq_some_iff.mp h; cases h
      · cases h
    · cases hr
    · obtain ⟨_, _, h⟩ := Option.bind_eq_some_iff.mp hr
      split at h <;> cases h
    · split at hr
      · cases hr
      · split at hr
        · cases hr
        · obtain ⟨_, _, h⟩ := Option.map_eq_some_iff.mp hr; cases h
  · generalize hm : v.map Fin.val = ms
    intro h
    cases h with
    | cooked hx hs =>
      obtain ⟨w, hw, e⟩ := cookBytes_body hx _
      obtain rfl := inj (hw.trans hm.symm)
      refine ⟨lexCooked_iff (byte := true).mpr ⟨_, _, _, rfl, hx, hs⟩, ?_⟩
      show (cookBytes .plain _).map _ = _
      rw [e]
      rfl
    | raw hn hx hs =>
      obtain ⟨w, h1, h2⟩ := mapM_bytes (hx.ascii rfl)
      obtain rfl := inj (h2.trans hm.symm)
      refine ⟨lexRaw_iff (byte := true).mpr ⟨_, _, _, rfl, hn, hx, hs⟩, ?_⟩
      show (rawBody _).bind _ = _
      rw [rawBody_eq (suffix_quote hs), Option.bind_some, h1]
      rfl

/-! ### characters and bytes -/

theorem charUni_digits {t : Text} {n v : Nat} (h : Digits 16 t n v) : ∀ {l a : Nat} (z : Text), l + n ≤ 6 → (l = 0 → t.head? ≠ some '_') →
    charEscape.uni l a (t ++ z) = charEscape.uni (l + n) (16 ^ n * a + v) z := by
  induction h with
  | nil => intro l a z _ _; simp
  | @digit t n v c d _ hd ih =>
    intro l a z hl hh
    obtain ⟨e, h1, h2⟩ := hex_char hd
    rw [List.append_assoc, ih _ (by omega) (fun h => head_front (hh h))]
    have : l + n ≠ 6 := by omega
    simp only [List.singleton_append, charEscape.uni, h1, h2, e, false_and, if_false, this]
    rw [pow_step]
    rfl
  | @under t n v hd ih =>
    intro l a z hl hh
    rw [List.append_assoc, ih _ hl (fun h => head_front (hh h))]
    have hp : 0 < l + n := by
      rcases Nat.eq_zero_or_pos l with h0 | h0
      · have hh := hh h0
        have : t ≠ [] := by rintro rfl; exact hh rfl
        have := digits_pos hd this (head_front hh)
        omega
      · omega
    simp [charEscape.uni, hp]

theorem cookUni_digits {t : Text} {n v : Nat} (h : Digits 16 t n v) : ∀ {a : Nat} (z : Text),
    cookOne.cookUni a (t ++ z) = cookOne.cookUni (16 ^ n * a + v) z := by
  induction h with
  | nil => intro a z; simp
  | @digit t n v c d _ hd ih =>
    intro a z
    obtain ⟨e, h1, h2⟩ := hex_char hd
    rw [List.append_assoc, ih, List.singleton_append, cookOne.cookUni, if_neg h2, if_neg h1, e, Option.bind_some, pow_step]
  | @under t n v hd ih =>
    intro a z
    rw [List.append_assoc, ih, List.singleton_append, cookOne.cookUni, if_neg (by decide), if_pos rfl]

theorem charEscape_reads {e : Text} {n : Nat} (h : Escape false e n) (s : Text) : ∃ e', e = '\\' :: e' ∧ charEscape (e' ++ s) = some s := by
  cases h with
  | @short e n h =>
    refine ⟨[e], rfl, ?_⟩
    simp only [shortEscapes, List.mem_cons, List.not_mem_nil, or_false, Prod.mk.injEq] at h
    rcases h with h | h | h | h | h | h | h <;> (rw [h.1]; rfl)
  | @hex a b h l ha hb hl =>
    obtain ⟨e2, _, _⟩ := hex_char hb
    have hlow := (hex_low ha).mpr (by have := hl rfl; omega)
    refine ⟨['x', a, b], rfl, ?_⟩
    show (if '0' ≤ a ∧ a ≤ '7' ∧ (hexVal b).isSome then some s else none) = some s
    rw [if_pos ⟨hlow.1, hlow.2, by rw [e2]; rfl⟩]
  | @uni t n v hb hd h0 h6 hh hv =>
    obtain ⟨c, hc, _⟩ := charOf_valid hv
    refine ⟨'u' :: '{' :: (t ++ ['}']), rfl, ?_⟩
    have e2 : ('u' :: '{' :: (t ++ ['}'])) ++ s = 'u' :: '{' :: (t ++ '}' :: s) := by simp
    rw [e2]
    show charEscape.uni 0 0 (t ++ '}' :: s) = some s
    rw [charUni_digits hd _ (by omega) (fun _ => hh)]
    simp [charEscape.uni, h0, hc]

theorem charUni_inv : ∀ {s : Text} {l a : Nat} {t r : Text}, Digits 16 t l a → (t.head? ≠ some '_') → l ≤ 6 →
    charEscape.uni l a s = some r →
    ∃ t' n v, s = t' ++ '}' :: r ∧ Digits 16 (t ++ t') n v ∧ 0 < n ∧ n ≤ 6 ∧ (t ++ t').head? ≠ some '_' ∧ v.isValidChar
  | [], _, _, _, _, _, _, _, h => by simp [charEscape.uni] at h
  | c :: s, l, a, t, r, hd, hh, hl, h => by
    rw [charEscape.uni] at h
    by_cases h1 : c = '_' ∧ 0 < l
    · rw [if_pos h1] at h
      have hne : t ≠ [] := by rintro rfl; have := digits_len hd; simp at this; omega
      obtain ⟨t', n, v, e, h2, h3, h4, h5, h6⟩ := charUni_inv (t := t ++ ['_']) hd.under
        (by cases t with | nil => exact absurd rfl hne | cons => exact hh) hl h
      rw [List.append_assoc] at h2 h5
      exact ⟨'_' :: t', n, v, by rw [h1.1, e]; rfl, h2, h3, h4, h5, h6⟩
    · rw [if_neg h1] at h
      by_cases h2 : c = '}' ∧ 0 < l
      · rw [if_pos h2] at h
        split at h
        · rename_i h3
          cases h
          have hv : a.isValidChar := by
            unfold charOf at h3
            split at h3
            · assumption
            · cases h3
          exact ⟨[], l, a, by rw [h2.1]; rfl, by rwa [List.append_nil], h2.2, hl, by rwa [List.append_nil], hv⟩
        · cases h
      · rw [if_neg h2] at h
        cases hx : hexVal c with
        | none => rw [hx] at h; cases h
        | some d =>
          rw [hx] at h
          simp only at h
          by_cases h6 : l = 6
          · rw [if_pos h6] at h; cases h
          · rw [if_neg h6] at h
            have hdig := (hexVal_iff c d).mp hx
            have hc := (hex_char hdig).2.1
            obtain ⟨t', n, v, e, g2, g3, g4, g5, g6⟩ := charUni_inv (t := t ++ [c]) (hd.digit hdig)
              (by cases t with | nil => simpa using hc | cons => exact hh) (by omega) h
            rw [List.append_assoc] at g2 g5
            exact ⟨c :: t', n, v, by rw [e]; rfl, g2, g3, g4, g5, g6⟩

theorem short_ex {c : Char} (h : c = 'n' ∨ c = 'r' ∨ c = 't' ∨ c = '\\' ∨ c = '0' ∨ c = '\'' ∨ c = '"') : ∃ n, (c, n) ∈ shortEscapes := by
  rcases h with rfl | rfl | rfl | rfl | rfl | rfl | rfl <;> exact ⟨_, by simp [shortEscapes]; rfl⟩

theorem charEscape_inv {s r : Text} (h : charEscape s = some r) : ∃ e n, '\\' :: s = e ++ r ∧ Escape false e n := by
  unfold charEscape at h
  split at h
  · rename_i a b cs
    split at h
    · rename_i hc
      cases h
      obtain ⟨lo, hlo⟩ := Option.isSome_iff_exists.mp hc.2.2
      have hia : (hexVal a).isSome = true := by
        have h1 : '0' ≤ a ∧ a ≤ '9' := by
          have h1 := hc.1
          have h2 := hc.2.1
          simp only [char_le_iff] at h1 h2 ⊢
          have e7 : '7'.toNat = 55 := rfl
          have e9 : '9'.toNat = 57 := rfl
          omega
        unfold hexVal
        rw [if_pos h1]
        rfl
      obtain ⟨hi, hhi⟩ := Option.isSome_iff_exists.mp hia
      have d1 := (hexVal_iff a hi).mp hhi
      have d2 := (hexVal_iff b lo).mp hlo
      refine ⟨['\\', 'x', a, b], 16 * hi + lo, rfl, .hex d1 d2 fun _ => ?_⟩
      have := (hex_low d1).mp ⟨hc.1, hc.2.1⟩
      have := d2.1
      omega
    · cases h
  · obtain ⟨t', n, v, e, g2, g3, g4, g5, g6⟩ := charUni_inv (t := []) .nil (by simp) (by omega) h
    exact ⟨'\\' :: 'u' :: '{' :: (t' ++ ['}']), v, by rw [e]; simp, .uni rfl g2 g3 g4 g5 g6⟩
  · split at h
    · rename_i c cs _ _ hc
      cases h
      obtain ⟨n, hn⟩ := short_ex hc
      exact ⟨['\\', c], n, rfl, .short hn⟩
    · cases h
  · cases h

theorem cookOne_escape {e : Text} {n : Nat} {byte : Bool} (h : Escape byte e n) (s : Text) : ∃ c : Char, c.toNat = n ∧ cookOne (e ++ s) = some (c, s) := by
  cases h with
  | @short e n h =>
    simp only [shortEscapes, List.mem_cons, List.not_mem_nil, or_false, Prod.mk.injEq] at h
    rcases h with h | h | h | h | h | h | h <;> (rw [h.1, h.2]; exact ⟨_, by rfl, rfl⟩)
  | @hex a b h l ha hb hl =>
    obtain ⟨e1, _, _⟩ := hex_char ha
    obtain ⟨e2, _, _⟩ := hex_char hb
    have h1 := ha.1
    have h2 := hb.1
    obtain ⟨c, hc, he⟩ := charOf_valid (v := 16 * h + l) (by unfold Nat.isValidChar; omega)
    refine ⟨c, he, ?_⟩
    show ((hexVal a).bind fun hi => (hexVal b).bind fun lo => (charOf (16 * hi + lo)).map fun v => (v, s)) = _
    rw [e1, Option.bind_some, e2, Option.bind_some, hc]
    rfl
  | @uni t n v hb hd h0 h6 hh hv =>
    obtain ⟨c, hc, he⟩ := charOf_valid hv
    refine ⟨c, he, ?_⟩
    have e2 : ('\\' :: 'u' :: '{' :: (t ++ ['}'])) ++ s = '\\' :: 'u' :: '{' :: (t ++ '}' :: s) := by simp
    rw [e2]
    show cookOne.cookUni 0 (t ++ '}' :: s) = _
    rw [cookUni_digits hd, cookOne.cookUni, if_pos rfl]
    simp [hc]

theorem close_iff {s r : Text} : lexChar.close s = some r ↔ ∃ cs, s = '\'' :: cs ∧ literalSuffix cs = r := by
  unfold lexChar.close
  split
  · simp
  · rename_i h
    constructor
    · intro h; cases h
    · rintro ⟨cs, rfl, _⟩; exact absurd rfl (h cs)

theorem lexChar_other {c : Char} (hc : c ≠ '\\') (s : Text) : lexChar (c :: s) = lexChar.close s := by
  unfold lexChar
  split
  · rename_i h; injection h with h _; exact absurd h hc
  · rename_i h; injection h with _ h; rw [h]
  · rename_i h; cases h

theorem charLit_iff (r : Text) (v : Char) : (lexLiteral r = some [] ∧ readLit r = some (.char v)) ↔ CharLit false r v.toNat := by
  constructor
  · rintro ⟨hl, hr⟩
    unfold readLit at hr
    split at hr
    · obtain ⟨_, _, h⟩ := Option.map_eq_some_iff.mp hr; cases h
    · obtain ⟨_, _, h⟩ := Option.map_eq_some_iff.mp hr; cases h
    · obtain ⟨_, _, h⟩ := Option.map_eq_some_iff.mp hr; cases h
    · obtain ⟨_, _, h⟩ := Option.bind_eq_some_iff.mp hr
      obtain ⟨_, _, h⟩ := Option.map_eq_some_iff.mp h; cases h
    · obtain ⟨_, _, h⟩ := Option.bind_eq_some_iff.mp hr
      split at h
      · obtain ⟨_, _, h⟩ := Option.map_eq_some_iff.mp h; cases h
      · cases h
    · cases hr
    · rename_i cs
      have hl' : lexChar cs = some [] := hl
      cases cs with
      | nil => cases hl'
      | cons c cs =>
        by_cases hc : c = '\\'
        · subst hc
          obtain ⟨q, h1, h2⟩ := Option.bind_eq_some_iff.mp (show (charEscape cs).bind lexChar.close = some [] from hl')
          obtain ⟨suf, rfl, hs⟩ := close_iff.mp h2
          obtain ⟨e, n, he, hx⟩ := charEscape_inv h1
          rw [he] at hr ⊢
          obtain ⟨d, hd, e3⟩ := cookOne_escape hx ('\'' :: suf)
          rw [e3] at hr
          cases hr
          rw [hd]
          exact .escape hx ((suffix_iff suf).mp hs)
        · rw [lexChar_other hc] at hl'
          obtain ⟨suf, rfl, hs⟩ := close_iff.mp hl'
          rw [cookOne_plain hc] at hr
          cases hr
          exact .plain hc (fun h => by cases h) ((suffix_iff suf).mp hs)
    · split at hr
      · cases hr
      · split at hr
        · cases hr
        · obtain ⟨_, _, h⟩ := Option.map_eq_some_iff.mp hr; cases h
  · generalize hm : v.toNat = m
    intro h
    cases h with
    | @plain c suf hc _ hs =>
      obtain rfl := Char.toNat_inj.mp hm
      constructor
      · show lexChar (v :: '\'' :: suf) = some []
        rw [lexChar_other hc]
        exact close_iff.mpr ⟨suf, rfl, (suffix_iff suf).mpr hs⟩
      · show (cookOne (v :: '\'' :: suf)).bind _ = _
        rw [cookOne_plain hc]
        rfl
    | @escape e n suf he hs =>
      constructor
      · obtain ⟨e', rfl, h1⟩ := charEscape_reads he ('\'' :: suf)
        show (charEscape (e' ++ '\'' :: suf)).bind lexChar.close = some []
        rw [h1]
        exact close_iff.mpr ⟨suf, rfl, (suffix_iff suf).mpr hs⟩
      · obtain ⟨d, hd, e3⟩ := cookOne_escape he ('\'' :: suf)
        obtain rfl := Char.toNat_inj.mp (hd.trans hm.symm)
        show (cookOne (e ++ '\'' :: suf)).bind _ = _
        rw [e3]
        rfl

theorem lexByte_other {c : Char} (hc : c ≠ '\\') (s : Text) : lexByte (c :: s) = if 127 < c.toNat then none else lexChar.close s := by
  unfold lexByte
  split
  · rename_i h; injection h with h _; exact absurd h hc
  · rename_i h; injection h with h _; exact absurd h hc
  · rename_i h; injection h with h1 h2; rw [h1, h2]
  · rename_i h; cases h

theorem lexByte_reads {e : Text} {n : Nat} (h : Escape true e n) (s : Text) : lexByte (e ++ s) = lexChar.close s := by
  cases h with
  | @short e n h =>
    simp only [shortEscapes, List.mem_cons, List.not_mem_nil, or_false, Prod.mk.injEq] at h
    rcases h with h | h | h | h | h | h | h <;> (rw [h.1]; rfl)
  | @hex a b h l ha hb hl =>
    obtain ⟨e1, _, _⟩ := hex_char ha
    obtain ⟨e2, _, _⟩ := hex_char hb
    show (if (hexVal a).isSome ∧ (hexVal b).isSome then lexChar.close s else none) = _
    rw [if_pos ⟨by rw [e1]; rfl, by rw [e2]; rfl⟩]
  | uni hb => cases hb

theorem lexByte_inv {s : Text} (h : lexByte ('\\' :: s) = some []) : ∃ e n suf, '\\' :: s = e ++ '\'' :: suf ∧ Escape true e n ∧ suffixOk suf = true := by
  unfold lexByte at h
  split at h
  · rename_i a b cs heq
    injection heq with _ heq
    subst heq
    split at h
    · rename_i hc
      obtain ⟨suf, rfl, hs⟩ := close_iff.mp h
      obtain ⟨hi, hhi⟩ := Option.isSome_iff_exists.mp hc.1
      obtain ⟨lo, hlo⟩ := Option.isSome_iff_exists.mp hc.2
      exact ⟨['\\', 'x', a, b], 16 * hi + lo, suf, rfl, .hex ((hexVal_iff a hi).mp hhi) ((hexVal_iff b lo).mp hlo) (fun h => by cases h), (suffix_iff suf).mp hs⟩
    · cases h
  · rename_i c cs _ heq
    injection heq with _ heq
    subst heq
    split at h
    · rename_i hc
      obtain ⟨suf, rfl, hs⟩ := close_iff.mp h
      obtain ⟨n, hn⟩ := short_ex hc
      exact ⟨['\\', c], n, suf, rfl, .short hn, (suffix_iff suf).mp hs⟩
    · cases h
  · rename_i c cs _ hne heq
    injection heq with h1 h2
    subst h1
    subst h2
    split at h
    · cases h
    · obtain ⟨suf, rfl, _⟩ := close_iff.mp h
      exact (hne _ _ rfl rfl).elim
  · rename_i heq; cases heq

theorem byteOf_eq {c : Char} (h : c.toNat < 256) : byteOfChar c = some ⟨c.toNat, h⟩ := by rw [byteOfChar, dif_pos h]

theorem escape_byte {e : Text} {n : Nat} (h : Escape true e n) : n < 256 := by
  cases h with
  | short h =>
    have : ∀ p ∈ shortEscapes, p.2 < 256 := by decide
    exact this _ h
  | hex ha hb _ => have := ha.1; have := hb.1; omega
  | uni hb => cases hb

theorem byteLit_iff (r : Text) (v : Byte) : (lexLiteral r = some [] ∧ readLit r = some (.byte v)) ↔ CharLit true r v.val := by
  constructor
  · rintro ⟨hl, hr⟩
    unfold readLit at hr
    split at hr
    · obtain ⟨_, _, h⟩ := Option.map_eq_some_iff.mp hr; cases h
    · obtain ⟨_, _, h⟩ := Option.map_eq_some_iff.mp hr; cases h
    · obtain ⟨_, _, h⟩ := Option.map_eq_some_iff.mp hr; cases h
    · obtain ⟨_, _, h⟩ := Option.bind_eq_some_iff.mp hr
      obtain ⟨_, _, h⟩ := Option.map_eq_some_iff.mp h; cases h
    · rename_i cs
      have hl' : lexByte cs = some [] := hl
      cases cs with
      | nil => cases hl'
      | cons c cs =>
        by_cases hc : c = '\\'
        · subst hc
          obtain ⟨e, n, suf, he, hx, hs⟩ := lexByte_inv hl'
          rw [he] at hr ⊢
          obtain ⟨d, hd, e3⟩ := cookOne_escape hx ('\'' :: suf)
          have hn := escape_byte hx
          rw [e3] at hr
          simp only [Option.bind_some, List.head?_cons, if_true, byteOf_eq (show d.toNat < 256 by omega)] at hr
          cases hr
          rw [show (⟨d.toNat, _⟩ : Byte).val = n from hd]
          exact .escape hx hs
        · rw [lexByte_other hc] at hl'
          split at hl'
          · cases hl'
          · rename_i hlt
            obtain ⟨suf, rfl, hs⟩ := close_iff.mp hl'
            rw [cookOne_plain hc] at hr
            simp only [Option.bind_some, List.head?_cons, if_true, byteOf_eq (show c.toNat < 256 by omega)] at hr
            cases hr
            exact .plain (byte := true) hc (fun _ => by omega) ((suffix_iff suf).mp hs)
    · cases hr
    · obtain ⟨_, _, h⟩ := Option.bind_eq_some_iff.mp hr
      split at h <;> cases h
    · split at hr
      · cases hr
      · split at hr
        · cases hr
        · obtain ⟨_, _, h⟩ := Option.map_eq_some_iff.mp hr; cases h
  · generalize hm : v.val = m
    intro h
    cases h with
    | @plain c suf hc hb hs =>
      have hb := hb rfl
      constructor
      · show lexByte (c :: '\'' :: suf) = some []
        rw [lexByte_other hc, if_neg (by omega)]
        exact close_iff.mpr ⟨suf, rfl, (suffix_iff suf).mpr hs⟩
      · show (cookOne (c :: '\'' :: suf)).bind _ = _
        rw [cookOne_plain hc]
        simp only [Option.bind_some, List.head?_cons, if_true, byteOf_eq (show c.toNat < 256 by omega)]
        rw [Option.map_some]
        congr 2
        exact Fin.ext hm.symm
    | @escape e n suf he hs =>
      have hn := escape_byte he
      constructor
      · show lexByte (e ++ '\'' :: suf) = some []
        rw [lexByte_reads he]
        exact close_iff.mpr ⟨suf, rfl, (suffix_iff suf).mpr hs⟩
      · obtain ⟨d, hd, e3⟩ := cookOne_escape he ('\'' :: suf)
        show (cookOne (e ++ '\'' :: suf)).bind _ = _
        rw [e3]
        simp only [Option.bind_some, List.head?_cons, if_true, byteOf_eq (show d.toNat < 256 by omega)]
        rw [Option.map_some]
        congr 2
        exact Fin.ext (hd.trans hm.symm)

end Parsel
