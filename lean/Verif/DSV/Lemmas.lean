import Verif.DSV.Spec
import Mathlib.Tactic.IntervalCases
/-! Reading a single cell. -/
namespace Mutable.DSV

/-- The cell ends here. -/
def Stop (cfg : Config) (rest : Str) : Prop := isEnd cfg (cur rest) = true

theorem isEnd_iff (cfg : Config) (c : Nat) : isEnd cfg c = true ↔ c = EOF ∨ c = NL ∨ c = cfg.delimiter := by
  simp [isEnd, or_assoc]

theorem Plain.notEnd {cfg : Config} {t : Str} (h : Plain cfg t) : ∀ c ∈ t, (!isEnd cfg c) = true := by
  intro c hc
  obtain ⟨h1, h2, h3⟩ := h c hc
  simp [isEnd, h1, h2, h3]

theorem takeWhile_of_all {p : Nat → Bool} {t rest : Str} (h : ∀ c ∈ t, p c = true) (hr : ∀ c ∈ rest.head?, p c = false) :
    (t ++ rest).takeWhile p = t := by
  induction t with
  | nil => cases rest with
    | nil => rfl
    | cons c r => simp [hr c (by simp)]
  | cons c t ih => simp [h c (by simp), ih fun x hx => h x (by simp [hx])]

theorem dropWhile_of_all {p : Nat → Bool} {t rest : Str} (h : ∀ c ∈ t, p c = true) (hr : ∀ c ∈ rest.head?, p c = false) :
    (t ++ rest).dropWhile p = rest := by
  induction t with
  | nil => cases rest with
    | nil => rfl
    | cons c r => simp [hr c (by simp)]
  | cons c t ih => simp [h c (by simp), ih fun x hx => h x (by simp [hx])]

theorem Stop.head {cfg : Config} {rest : Str} (h : Stop cfg rest) : ∀ c ∈ rest.head?, (!isEnd cfg c) = false := by
  intro c hc
  cases rest with
  | nil => simp at hc
  | cons d r => simp at hc; subst hc; simpa [Stop, cur] using h

theorem take_plain {cfg : Config} {t rest : Str} (h : Plain cfg t) (hr : Stop cfg rest) : ((t ++ rest).takeWhile fun c => !isEnd cfg c) = t :=
  takeWhile_of_all h.notEnd hr.head

theorem skip_plain {cfg : Config} {t rest : Str} (h : Plain cfg t) (hr : Stop cfg rest) : skipToEnd cfg (t ++ rest) = rest :=
  dropWhile_of_all h.notEnd hr.head

theorem skip_stop {cfg : Config} {rest : Str} (hr : Stop cfg rest) : skipToEnd cfg rest = rest := by
  simpa using skip_plain (cfg := cfg) (t := []) (by simp [Plain]) hr

theorem Stop.ne_quote {cfg : Config} (hv : Valid cfg) {rest : Str} (h : Stop cfg rest) : cur rest ≠ cfg.quote := by
  rcases (isEnd_iff _ _).1 h with h | h | h
  · rw [h]; exact Ne.symm hv.qe
  · rw [h]; exact Ne.symm hv.qn
  · rw [h]; exact hv.dq

theorem discard_stop {cfg : Config} (hv : Valid cfg) {rest : Str} (h : Stop cfg rest) : discardCell cfg rest = rest := by
  unfold discardCell
  rw [if_neg (h.ne_quote hv), skip_stop h]

theorem pooled_eq {t : Str} (h : 0 ∉ t) : pooled t = t := by
  have := takeWhile_of_all (p := fun c => c != 0) (t := t) (rest := []) (by
    intro c hc
    simp only [bne_iff_ne, ne_eq]
    rintro rfl
    exact h hc) (by simp)
  rw [List.append_nil] at this; exact this

/-! ### Numbers -/

theorem isDec_iff (c : Nat) : isDec c = true ↔ 48 ≤ c ∧ c ≤ 57 := by simp [isDec]

def valueFrom (n : Nat) (ds : Str) : Nat := ds.foldl (fun n c => 10 * n + (c - 48)) n

theorem valueFrom_zero (ds : Str) : valueFrom 0 ds = value ds := rfl

theorem step_digit (n : Nat) {c : Nat} (h : 48 ≤ c) : 10 * BitVec.ofNat 64 n + BitVec.ofNat 64 c - 48 = BitVec.ofNat 64 (10 * n + (c - 48)) := by
  have hc : BitVec.ofNat 64 c = BitVec.ofNat 64 (c - 48) + 48 := by
    have : c = (c - 48) + 48 := by omega
    conv_lhs => rw [this]
    rw [BitVec.ofNat_add]; rfl
  rw [hc, BitVec.ofNat_add, BitVec.ofNat_mul, ← BitVec.add_assoc, BitVec.add_sub_cancel]; rfl

theorem readUInt_digits {ds rest : Str} (hd : Digits ds) (hr : isDec (cur rest) = false) (n : Nat) :
    readUInt (BitVec.ofNat 64 n) (ds ++ rest) = (BitVec.ofNat 64 (valueFrom n ds), rest) := by
  induction ds generalizing n with
  | nil =>
    cases rest with
    | nil => rfl
    | cons c r =>
      simp only [List.nil_append, readUInt, valueFrom, List.foldl_nil]
      rw [if_neg (by simpa [cur] using hr)]
  | cons c ds ih =>
    obtain ⟨h1, h2⟩ := hd c (by simp)
    simp only [List.cons_append, readUInt]
    rw [if_pos ((isDec_iff c).2 ⟨h1, h2⟩), step_digit n h1, ih fun x hx => hd x (by simp [hx])]
    rfl

theorem head_digit {ds : Str} (hne : ds ≠ []) (hd : Digits ds) (rest : Str) : 48 ≤ cur (ds ++ rest) ∧ cur (ds ++ rest) ≤ 57 := by
  cases ds with
  | nil => exact absurd rfl hne
  | cons c ds => exact hd c (by simp)

theorem readSign_spec {sg : Str} {k : Int} (hs : Sign sg k) {ds rest : Str} (hne : ds ≠ []) (hd : Digits ds) :
    readSign (sg ++ (ds ++ rest)) = (decide (k = -1), ds ++ rest) := by
  obtain ⟨h1, h2⟩ := head_digit hne hd rest
  cases hs with
  | none =>
    simp only [List.nil_append, readSign, accept]
    rw [if_neg (by omega), if_neg (by omega)]
    simp
  | plus => simp [readSign, accept, cur, step]
  | minus => simp [readSign, cur, step]

theorem stop_not_dec {cfg : Config} {rest : Str} (hv : Valid cfg) (hr : Stop cfg rest) : isDec (cur rest) = false := by
  have := (isEnd_iff _ _).1 hr
  rcases this with h | h | h
  · rw [h]; decide
  · rw [h]; decide
  · rw [h]; simpa [isDec] using hv.dd

theorem neg_ofNat (n : Nat) : -(BitVec.ofNat 64 n) = BitVec.ofInt 64 (-1 * (n : Int)) := by
  rw [Int.neg_mul, Int.one_mul, BitVec.ofInt_neg, BitVec.ofInt_natCast]

theorem sign_val {sg : Str} {k : Int} (hs : Sign sg k) (n : Nat) :
    (if decide (k = -1) = true then -(BitVec.ofNat 64 n) else BitVec.ofNat 64 n) = BitVec.ofInt 64 (k * n) := by
  cases hs with
  | none => simp [BitVec.ofInt_natCast]
  | plus => simp [BitVec.ofInt_natCast]
  | minus => simp only [decide_true, if_true]; exact neg_ofNat n

theorem readInt_spec {cfg : Config} (hv : Valid cfg) {sg : Str} {k : Int} (hs : Sign sg k) {ds rest : Str} (hne : ds ≠ []) (hd : Digits ds)
    (hr : Stop cfg rest) : readInt cfg (sg ++ ds ++ rest) = (.int (BitVec.ofInt 64 (k * value ds)), rest, false) := by
  unfold readInt
  rw [List.append_assoc, readSign_spec hs hne hd]
  simp only
  have := readUInt_digits hd (stop_not_dec hv hr) 0
  rw [show (BitVec.ofNat 64 0) = 0 from rfl] at this
  rw [this]
  simp only
  rw [if_pos (show isEnd cfg (cur rest) = true from hr), valueFrom_zero, sign_val hs]

theorem pow10_eq {n : Nat} (h : n ≤ 9) : pow10 n = BitVec.ofNat 64 (10 ^ n) := by
  unfold pow10
  interval_cases n <;> rfl

theorem readPost_digits {ps rest : Str} (hd : Digits ps) (hr : isDec (cur rest) = false) {n : Nat} (hn : n ≤ 9) (p : Nat) :
    readPost n (BitVec.ofNat 64 p) (ps ++ rest) = (BitVec.ofNat 64 (valueFrom p (ps.take n) * 10 ^ (n - ps.length)), ps.drop n ++ rest) := by
  induction ps generalizing n p with
  | nil =>
    cases n with
    | zero => simp [readPost, valueFrom, pow10_eq]
    | succ n =>
      cases rest with
      | nil => simp only [List.nil_append, List.take_nil, List.drop_nil, readPost, pow10_eq hn, valueFrom, List.foldl_nil, List.length_nil, Nat.sub_zero, BitVec.ofNat_mul]
      | cons c r =>
        simp only [List.nil_append, readPost]
        rw [if_neg (by simpa [cur] using hr)]
        simp only [pow10_eq hn, valueFrom, List.take_nil, List.drop_nil, List.nil_append, List.foldl_nil, List.length_nil, Nat.sub_zero, BitVec.ofNat_mul]
  | cons c ps ih =>
    obtain ⟨h1, h2⟩ := hd c (by simp)
    cases n with
    | zero => simp [readPost, valueFrom, pow10_eq]
    | succ n =>
      simp only [List.cons_append, readPost]
      rw [if_pos ((isDec_iff c).2 ⟨h1, h2⟩), step_digit p h1, ih (fun x hx => hd x (by simp [hx])) (by omega)]
      simp [valueFrom]

theorem dropDec_stop {rest : Str} (hr : isDec (cur rest) = false) : rest.dropWhile isDec = rest := by
  cases rest with
  | nil => rfl
  | cons c r => simp only [cur, List.headD_cons] at hr; simp [hr]

theorem dropDec_digits {ps rest : Str} (hd : Digits ps) (hr : isDec (cur rest) = false) : (ps ++ rest).dropWhile isDec = rest := by
  induction ps with
  | nil => exact dropDec_stop hr
  | cons c ps ih =>
    rw [List.cons_append, List.dropWhile_cons_of_pos ((isDec_iff c).2 (hd c (by simp)))]
    exact ih fun x hx => hd x (by simp [hx])

theorem readDecimal_spec {cfg : Config} (hv : Valid cfg) {sg : Str} {k : Int} (hs : Sign sg k) {ds rest : Str} (hne : ds ≠ []) (hd : Digits ds)
    {n : Nat} (hn : n ≤ 9) (hr : Stop cfg rest) :
    readDecimal cfg n (sg ++ ds ++ rest) = (.int (BitVec.ofInt 64 (k * (value ds * 10 ^ n : Nat))), rest, false) := by
  unfold readDecimal
  rw [List.append_assoc, readSign_spec hs hne hd]
  simp only
  have := readUInt_digits hd (stop_not_dec hv hr) 0
  rw [show (BitVec.ofNat 64 0) = 0 from rfl] at this
  rw [this]
  have h46 : cur rest ≠ 46 := by
    rcases (isEnd_iff _ _).1 hr with h | h | h
    · rw [h]; decide
    · rw [h]; decide
    · rw [h]; exact hv.dp
  simp only [h46, if_false]
  rw [if_pos (show isEnd cfg (cur rest) = true from hr), valueFrom_zero, pow10_eq hn, ← BitVec.ofNat_mul, sign_val hs]

theorem readDecimalDot_spec {cfg : Config} (hv : Valid cfg) {sg : Str} {k : Int} (hs : Sign sg k) {ds ps rest : Str} (hne : ds ≠ []) (hd : Digits ds)
    (hp : Digits ps) {n : Nat} (hn : n ≤ 9) (hb : value ds * 10 ^ n < 2 ^ 63) (hr : Stop cfg rest) :
    readDecimal cfg n (sg ++ ds ++ 46 :: ps ++ rest) =
      (.int (BitVec.ofInt 64 (k * (value ds * 10 ^ n + value (ps.take n) * 10 ^ (n - ps.length) : Nat))), rest, false) := by
  unfold readDecimal
  rw [List.append_assoc, List.append_assoc, readSign_spec hs hne hd]
  simp only
  have := readUInt_digits hd (rest := 46 :: ps ++ rest) (show isDec 46 = false by decide) 0
  rw [show (BitVec.ofNat 64 0) = 0 from rfl] at this
  rw [this]
  have hps := readPost_digits hp (stop_not_dec hv hr) hn 0
  rw [show (BitVec.ofNat 64 0) = 0 from rfl] at hps
  simp only [List.cons_append, cur, List.headD_cons, if_true, step, List.tail_cons]
  rw [hps]
  simp only [dropDec_digits (fun x hx => hp x (List.mem_of_mem_drop hx)) (stop_not_dec hv hr), valueFrom_zero]
  have hge : (BitVec.ofNat 64 (value ds) * pow10 n).toInt ≥ 0 := by
    rw [pow10_eq hn, ← BitVec.ofNat_mul, BitVec.toInt_eq_toNat_cond, BitVec.toNat_ofNat, Nat.mod_eq_of_lt (by omega), if_pos (by omega)]
    exact Int.natCast_nonneg _
  have hr' : isEnd cfg (rest.headD EOF) = true := hr
  simp only [hge, if_true]
  rw [if_pos hr', pow10_eq hn, ← BitVec.ofNat_mul, ← BitVec.ofNat_add, sign_val hs]

/-! ### Strings -/

theorem readRFC_spec {q : Nat} {s rest : Str} (hq : q ≠ EOF) (h : EOF ∉ s) (hr : cur rest ≠ q) : readRFC q (rfcBody q s ++ q :: rest) = (s, rest) := by
  induction s with
  | nil =>
    cases rest with
    | nil => simp [rfcBody, readRFC, hq]
    | cons d r =>
      have hd : d ≠ q := by simpa [cur] using hr
      simp [rfcBody, readRFC, hq, hd]
  | cons c s ih =>
    have hc : c ≠ EOF := fun hh => h (by simp [hh])
    have ih := ih (fun hh => h (by simp [hh]))
    have hb : rfcBody q (c :: s) = (if c = q then [q, q] else [c]) ++ rfcBody q s := by simp [rfcBody]
    rw [hb]
    by_cases hcq : c = q
    · subst hcq
      rw [if_pos rfl]
      simp only [List.append_assoc, List.cons_append, List.nil_append, readRFC]
      rw [if_neg hc, if_neg (by simp), if_pos trivial, ih]
    · rw [if_neg hcq]
      obtain ⟨d, t, ht⟩ : ∃ d t, rfcBody q s ++ q :: rest = d :: t := by
        cases hx : rfcBody q s with
        | nil => exact ⟨q, rest, rfl⟩
        | cons d t => exact ⟨d, t ++ q :: rest, rfl⟩
      rw [List.append_assoc, ht]
      simp only [List.cons_append, List.nil_append, readRFC]
      rw [if_neg hc, if_pos hcq, ← ht, ih]

theorem readEsc_spec {q e : Nat} {s rest : Str} (hq : q ≠ EOF) (he : e ≠ EOF) (heq : e ≠ q) (h : EOF ∉ s) :
    readEsc q e (escBody q e s ++ q :: rest) = (s, rest) := by
  induction s with
  | nil =>
    cases rest with
    | nil => simp [escBody, readEsc, hq]
    | cons d r => simp [escBody, readEsc, hq]
  | cons c s ih =>
    have hc : c ≠ EOF := fun hh => h (by simp [hh])
    have ih := ih (fun hh => h (by simp [hh]))
    have hb : escBody q e (c :: s) = (if c = q ∨ c = e then [e, c] else [c]) ++ escBody q e s := by simp [escBody]
    rw [hb]
    by_cases hcq : c = q ∨ c = e
    · rw [if_pos hcq]
      simp only [List.append_assoc, List.cons_append, List.nil_append, readEsc]
      rw [if_neg he, if_neg heq, if_pos trivial, ih]
    · rw [if_neg hcq]
      push Not at hcq
      obtain ⟨d, t, ht⟩ : ∃ d t, escBody q e s ++ q :: rest = d :: t := by
        cases hx : escBody q e s with
        | nil => exact ⟨q, rest, rfl⟩
        | cons d t => exact ⟨d, t ++ q :: rest, rfl⟩
      rw [List.append_assoc, ht]
      simp only [List.cons_append, List.nil_append, readEsc]
      rw [if_neg hc, if_neg hcq.1, if_neg hcq.2, ← ht, ih]

/-! ### Dates -/

/-- The text matches the pattern of character classes. -/
def Matches (pat : List (Nat → Bool)) (t : Str) : Prop := List.Forall₂ (fun p c => p c = true) pat t

theorem readPattern_spec {pat : List (Nat → Bool)} {t : Str} (h : Matches pat t) (rest : Str) : readPattern pat (t ++ rest) = (some t, rest) := by
  induction h with
  | nil => rfl
  | @cons p c ps t hp _ ih =>
    simp only [List.cons_append, readPattern, cur, List.headD_cons, hp, if_true, step, List.tail_cons, ih, Option.map_some]

theorem readDate_plain {cfg : Config} {pat : List (Nat → Bool)} {sg t rest : Str} (hs : sg = [] ∨ sg = [45]) (h : Matches pat t)
    (hp : ∃ ps, pat = isDec :: ps) (hq : cfg.quote ∉ sg ++ t) : readDate cfg pat (sg ++ t ++ rest) = (.text (sg ++ t), rest, false) := by
  obtain ⟨ps, rfl⟩ := hp
  have h' := readPattern_spec h rest
  cases h with
  | @cons _ c _ t' hc ht =>
  have hd : c ≠ 45 := by rintro rfl; exact absurd hc (by decide)
  unfold readDate
  rcases hs with rfl | rfl
  · simp only [List.nil_append] at hq ⊢
    have hqc : c ≠ cfg.quote := fun hh => hq (by simp [hh])
    simp only [accept, List.cons_append, cur, List.headD_cons, hqc, hd, if_false]
    rw [List.cons_append] at h'
    rw [h']
    simp
  · have hqc : 45 ≠ cfg.quote := fun hh => hq (by simp [hh])
    simp only [accept, List.cons_append, List.nil_append, cur, List.headD_cons, hqc, if_false, if_true, step, List.tail_cons]
    rw [List.cons_append] at h'
    rw [h']
    simp

theorem readDate_quoted {cfg : Config} {pat : List (Nat → Bool)} {sg t rest : Str} (hs : sg = [] ∨ sg = [45]) (h : Matches pat t)
    (hp : ∃ ps, pat = isDec :: ps) :
    readDate cfg pat (cfg.quote :: (sg ++ t ++ [cfg.quote]) ++ rest) = (.text (sg ++ t), rest, false) := by
  obtain ⟨ps, rfl⟩ := hp
  have h' := readPattern_spec h (cfg.quote :: rest)
  cases h with
  | @cons _ c _ t' hc ht =>
  have hd : c ≠ 45 := by rintro rfl; exact absurd hc (by decide)
  unfold readDate
  rw [List.cons_append] at h'
  rcases hs with rfl | rfl
  · simp only [List.nil_append, accept, List.cons_append, cur, List.headD_cons, if_true, step, List.tail_cons, hd, if_false, List.append_assoc, h']
  · simp only [List.nil_append, accept, List.cons_append, cur, List.headD_cons, if_true, step, List.tail_cons, List.append_assoc, h']

/-- The class of characters that a character of a form stands for. -/
def formClass (f : Nat) : Nat → Bool := if f = 100 then isDec else (· == f)

theorem looks_matches {form t : Str} (h : Looks form t) : Matches (form.map formClass) t := by
  induction h with
  | nil => exact .nil
  | @cons f c _ _ hc _ ih =>
    refine .cons ?_ ih
    unfold formClass
    split
    · rw [if_pos ‹_›] at hc; exact (isDec_iff c).2 hc
    · rw [if_neg ‹_›] at hc; simp [hc]

theorem looks_date {t : Str} (h : Looks dateForm t) : Matches datePattern t := looks_matches h

theorem looks_datetime {t : Str} (h : Looks datetimeForm t) : Matches datetimePattern t := looks_matches h

theorem datePattern_head : ∃ ps, datePattern = isDec :: ps := ⟨_, rfl⟩
theorem datetimePattern_head : ∃ ps, datetimePattern = isDec :: ps := ⟨_, rfl⟩

/-! ### Any cell -/

theorem readChar_plain {cfg : Config} {s rest : Str} (hne : s ≠ []) (hp : Plain cfg s) (hq : cfg.quote ∉ s) (h0 : 0 ∉ s) (hr : Stop cfg rest) :
    readChar cfg (s ++ rest) = (.str s, rest, false) := by
  unfold readChar
  have hc : cur (s ++ rest) ≠ cfg.quote := by
    cases s with
    | nil => exact absurd rfl hne
    | cons c s => intro h; exact hq (by simp only [List.cons_append, cur, List.headD_cons] at h; simp [h])
  rw [if_neg hc]
  simp only [take_plain hp hr, skip_plain hp hr, if_neg hq, pooled_eq h0]

theorem readTy_spec {cfg : Config} (hv : Valid cfg) {isNum : Str → Bool} {ty : Ty} {v : Val} {t rest : Str} (h : Writes cfg isNum ty v t) (hne : t ≠ [])
    (hr : Stop cfg rest) (id : Nat) (s : R) (hs : s.inp = t ++ rest) :
    readTy cfg isNum id ty s = { inp := rest, tup := s.tup.set id v, errs := s.errs } := by
  unfold readTy
  rw [hs]
  cases h with
  | null => exact absurd rfl hne
  | btrue hp => simp only [readBool, take_plain hp hr, skip_plain hp hr]; rfl
  | bfalse hp => simp only [readBool, take_plain hp hr, skip_plain hp hr]; rfl
  | int hsg hds hd hp => simp only [readInt_spec hv hsg hds hd hr]; rfl
  | decimal hsg hds hd hp hn => simp only [readDecimal_spec hv hsg hds hd hn hr]; rfl
  | decimalDot hsg hds hd hp _ hn hb => simp only [readDecimalDot_spec hv hsg hds hd hp hn hb hr]; rfl
  | str hn hp hq h0 => simp only [readChar_plain hn hp hq h0 hr]; rfl
  | @rfc s' he h0 hE =>
    have : readChar cfg (cfg.quote :: (rfcBody cfg.quote s' ++ [cfg.quote]) ++ rest) = (.str s', rest, false) := by
      unfold readChar
      simp only [List.cons_append, cur, List.headD_cons, if_true, step, List.tail_cons, he, List.append_assoc, List.nil_append,
        readRFC_spec hv.qe hE (hr.ne_quote hv), pooled_eq h0]
    simp only [this]; rfl
  | @esc s' he heE h0 hE =>
    have : readChar cfg (cfg.quote :: (escBody cfg.quote cfg.escape s' ++ [cfg.quote]) ++ rest) = (.str s', rest, false) := by
      unfold readChar
      simp only [List.cons_append, cur, List.headD_cons, if_true, step, List.tail_cons, he, if_false, List.append_assoc, List.nil_append,
        readEsc_spec hv.qe heE he hE, pooled_eq h0]
    simp only [this]; rfl
  | date hsg hm hp hq => simp only [readDate_plain hsg (looks_date hm) datePattern_head hq]; rfl
  | dateQ hsg hm => simp only [readDate_quoted hsg (looks_date hm) datePattern_head]; rfl
  | datetime hsg hm hp hq => simp only [readDate_plain hsg (looks_datetime hm) datetimePattern_head hq]; rfl
  | datetimeQ hsg hm => simp only [readDate_quoted hsg (looks_datetime hm) datetimePattern_head]; rfl
  | float hn hi hp => simp only [readFloat, take_plain hp hr, skip_plain hp hr, hi]; rfl

/-- A cell that is not empty starts with a character that neither is the delimiter nor a newline. -/
theorem Writes.head {cfg : Config} (hv : Valid cfg) {isNum : Str → Bool} {ty : Ty} {v : Val} {t : Str} (h : Writes cfg isNum ty v t) (hne : t ≠ []) (rest : Str) :
    cur (t ++ rest) ≠ cfg.delimiter ∧ cur (t ++ rest) ≠ NL := by
  have hplain : Plain cfg t → cur (t ++ rest) ≠ cfg.delimiter ∧ cur (t ++ rest) ≠ NL := by
    intro hp
    cases t with
    | nil => exact absurd rfl hne
    | cons c t => obtain ⟨h1, h2, -⟩ := hp c (by simp); exact ⟨h2, h1⟩
  have hquote : ∀ x, cur ((cfg.quote :: x) ++ rest) ≠ cfg.delimiter ∧ cur ((cfg.quote :: x) ++ rest) ≠ NL := by
    intro x; exact ⟨Ne.symm hv.dq, hv.qn⟩
  cases h with
  | null => exact absurd rfl hne
  | btrue hp => exact hplain hp
  | bfalse hp => exact hplain hp
  | int _ _ _ hp => exact hplain hp
  | decimal _ _ _ hp _ => exact hplain hp
  | decimalDot _ _ _ _ hp _ _ => exact hplain hp
  | str _ hp _ _ => exact hplain hp
  | rfc => exact hquote _
  | esc => exact hquote _
  | date _ _ hp _ => exact hplain hp
  | dateQ => exact hquote _
  | datetime _ _ hp _ => exact hplain hp
  | datetimeQ => exact hquote _
  | float _ _ hp => exact hplain hp

theorem discard_ignorable {cfg : Config} (hv : Valid cfg) {t rest : Str} (h : Ignorable cfg t) (hr : Stop cfg rest) : discardCell cfg (t ++ rest) = rest := by
  cases h with
  | @plain t hp hq =>
    unfold discardCell
    cases t with
    | nil => rw [List.nil_append, if_neg (hr.ne_quote hv), skip_stop hr]
    | cons c t =>
      rw [if_neg (by simpa [cur] using hq), skip_plain hp hr]
  | @quoted t hp =>
    unfold discardCell
    simp only [List.cons_append, cur, List.headD_cons, if_true, step, List.tail_cons, List.append_assoc, List.nil_append]
    rw [dropWhile_of_all (rest := cfg.quote :: rest)]
    · simp [accept, cur, step]
    · intro c hc; obtain ⟨h1, h2, h3⟩ := hp c hc; simp [h1, h2, h3]
    · simp

end Mutable.DSV
