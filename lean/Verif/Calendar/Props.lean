import Verif.Calendar.Lemmas
import Verif.Lexer.Spec

/-!
# C78 — dates, date times and decimals as text

The specification: the text of a date is `[-]YYYY-MM-DD`, that of a date time `[-]YYYY-MM-DD hh:mm:ss` (`DateText`,
`TimeText`, `Valid` of Verif/Lexer/Spec.lean: the texts the lexer accepts); what is printed must be read back as the same value, and
dates must be ordered like (year, month, day).
-/

namespace Mutable.Calendar

open Mutable.Lex.Spec (NDigits DateText TimeText Valid)

/-- The text of a date constant. -/
def literal (w : Str) : Str := 'd' :: '\'' :: (w ++ ['\''])

/-- The number a text of digits denotes. -/
def value (ds : Str) : Int := (Nat.ofDigitChars 10 ds 0 : Nat)

/-! ### The encoding of dates -/

/-- The fields of a date are recovered from its encoding: for every year of 23 bits (with sign), every month below 16 and
every day below 32. -/
theorem C78_date_fields {y m d : Int} (hy : -2 ^ 22 ≤ y ∧ y < 2 ^ 22) (hm : 0 ≤ m ∧ m < 16) (hd : 0 ≤ d ∧ d < 32) :
    year (encodeDate y m d) = y ∧ month (encodeDate y m d) = m ∧ day (encodeDate y m d) = d := by
  have h := encode_toNat (y := y) hm hd
  rw [year_eq, month_eq, day_eq, BitVec.toInt_eq_toNat_cond]
  refine ⟨?_, ?_, ?_⟩
  · split <;> omega
  · omega
  · omega

example : year (encodeDate (-44) 3 15) = -44 ∧ month (encodeDate (-44) 3 15) = 3 ∧ day (encodeDate (-44) 3 15) = 15 :=
  C78_date_fields (by decide) (by decide) (by decide)

/-- Every `int32_t` is the encoding of its fields. -/
theorem C78_date_encoding (d : BitVec 32) : encodeDate (year d) (month d) (day d) = d := by
  have hm : 0 ≤ month d ∧ month d < 16 := by rw [month_eq]; omega
  have hd : 0 ≤ day d ∧ day d < 32 := by rw [day_eq]; omega
  apply BitVec.eq_of_toNat_eq
  have h := encode_toNat (y := year d) hm hd
  have h1 := year_eq d
  have h2 := month_eq d
  have h3 := day_eq d
  rw [BitVec.toInt_eq_toNat_cond] at h1
  have := d.isLt
  split at h1 <;> omega

/-- Dates are ordered like their years, then months, then days: comparing the encodings as signed integers is right also
for negative years. -/
theorem C78_date_order (a b : BitVec 32) :
    a.slt b = true ↔ year a < year b ∨ (year a = year b ∧ (month a < month b ∨ (month a = month b ∧ day a < day b))) := by
  rw [BitVec.slt_iff_toInt_lt, year_eq, year_eq, month_eq, month_eq, day_eq, day_eq, BitVec.toInt_eq_toNat_cond,
    BitVec.toInt_eq_toNat_cond]
  have := a.isLt
  have := b.isLt
  split <;> split <;> omega

example : (encodeDate (-44) 3 15).slt (encodeDate (-43) 1 1) = true := by decide +kernel

/-! ### Reading and printing dates -/

theorem scan_literal {w : Nat} {y m d : Int} {wm wd : Nat} :
    scanDate ('d' :: '\'' :: (setwInternal w y ++ '-' :: (setwInternal wm m ++ '-' :: (setwInternal wd d ++ ['\''])))) = some (y, m, d) := by
  unfold scanDate
  simp only [expect_cons, Option.bind_eq_bind, Option.bind_some]
  rw [readInt_setw (stops_cons (by decide))]
  simp only [expect_cons, Option.bind_some]
  rw [readInt_setw (stops_cons (by decide))]
  simp only [expect_cons, Option.bind_some]
  rw [readInt_setw (stops_cons (by decide))]
  rfl

/-- What is printed for a date is read back as the same date, for all 2³² values. -/
theorem C78_print_read_date (d : BitVec 32) : interpretDate (literal (printDate d)) = some d := by
  have : literal (printDate d) = 'd' :: '\'' :: (setwInternal (if year d > 0 then 4 else 5) (year d) ++ '-' ::
      (setwInternal 2 (month d) ++ '-' :: (setwInternal 2 (day d) ++ ['\'']))) := by simp [literal, printDate]
  unfold interpretDate
  rw [this, scan_literal]
  simp [C78_date_encoding]

/-- Different dates are printed differently. -/
theorem C78_print_date_injective {a b : BitVec 32} (h : printDate a = printDate b) : a = b := by
  have ha := C78_print_read_date a
  rw [h, C78_print_read_date b] at ha
  exact (Option.some.inj ha).symm

/-- Digits are read as the number they denote. -/
theorem readInt_digits {w r : Str} (hw : Digits w) (hne : w ≠ []) (hr : Stops r) : readInt (w ++ r) = some (value w, r) := by
  obtain ⟨c, t, rfl⟩ := List.exists_cons_of_ne_nil hne
  have hc := hw c (by simp)
  have h1 : c ≠ ' ' := by rintro rfl; simp at hc
  have h2 : c ≠ '-' := by rintro rfl; simp at hc
  have h3 : c ≠ '+' := by rintro rfl; simp at hc
  have ⟨e1, e2⟩ := takeWhile_stop hw hr
  have hd : readDigits (c :: t ++ r) = some (Nat.ofDigitChars 10 (c :: t) 0, r) := by unfold readDigits; rw [e1, e2]
  rw [List.cons_append] at hd ⊢
  unfold readInt
  have : (c == ' ') = false := by simpa using h1
  simp only [List.dropWhile_cons, this, Bool.false_eq_true, if_false]
  split
  · rename_i h; simp at h; exact absurd h.1 h2
  · rename_i h; simp at h; exact absurd h.1 h3
  · rw [hd]; rfl

theorem readInt_neg_digits {w r : Str} (hw : Digits w) (hne : w ≠ []) (hr : Stops r) :
    readInt ('-' :: (w ++ r)) = some (-value w, r) := by
  obtain ⟨c, t, rfl⟩ := List.exists_cons_of_ne_nil hne
  have ⟨e1, e2⟩ := takeWhile_stop hw hr
  have hd : readDigits (c :: t ++ r) = some (Nat.ofDigitChars 10 (c :: t) 0, r) := by unfold readDigits; rw [e1, e2]
  unfold readInt
  simp only [List.dropWhile_cons, show ('-' == ' ') = false from rfl, Bool.false_eq_true, if_false]
  rw [hd]; rfl

theorem nDigits_digits {n : Nat} {w : Str} (h : NDigits n w) : Digits w := by
  intro c hc
  have := h.2 c hc
  unfold Mutable.Lex.isDec at this
  simp only [decide_eq_true_eq] at this
  unfold Char.isDigit
  simp only [Bool.and_eq_true, decide_eq_true_eq]
  exact this

/-- The fields of a date constant are those it is written with. -/
theorem scan_constant {sgn y m d : Str} (hs : sgn = [] ∨ sgn = ['-']) (hy : NDigits 4 y) (hm : NDigits 2 m) (hd : NDigits 2 d) :
    scanDate (literal (sgn ++ y ++ '-' :: m ++ '-' :: d)) = some (if sgn = [] then value y else -value y, value m, value d) := by
  have ny : y ≠ [] := by rintro rfl; simp [NDigits] at hy
  have nm : m ≠ [] := by rintro rfl; simp [NDigits] at hm
  have nd : d ≠ [] := by rintro rfl; simp [NDigits] at hd
  have e : literal (sgn ++ y ++ '-' :: m ++ '-' :: d) = 'd' :: '\'' :: (sgn ++ (y ++ ('-' :: (m ++ ('-' :: (d ++ ['\''])))))) := by
    simp [literal]
  rw [e]
  unfold scanDate
  simp only [expect_cons, Option.bind_eq_bind, Option.bind_some]
  have hread : readInt (sgn ++ (y ++ ('-' :: (m ++ ('-' :: (d ++ ['\'']))))))
      = some (if sgn = [] then value y else -value y, '-' :: (m ++ ('-' :: (d ++ ['\''])))) := by
    rcases hs with rfl | rfl
    · exact readInt_digits (nDigits_digits hy) ny (stops_cons (by decide))
    · exact readInt_neg_digits (nDigits_digits hy) ny (stops_cons (by decide))
  rw [hread]
  simp only [expect_cons, Option.bind_some]
  rw [readInt_digits (nDigits_digits hm) nm (stops_cons (by decide))]
  simp only [expect_cons, Option.bind_some]
  rw [readInt_digits (nDigits_digits hd) nd (stops_cons (by decide))]
  rfl

/-- A date constant the lexer accepts denotes the year, month and day it is written with, provided that the month is below 16
and the day below 32. -/
theorem C78_date_constant {sgn y m d : Str} (hs : sgn = [] ∨ sgn = ['-']) (hy : NDigits 4 y) (hm : NDigits 2 m) (hd : NDigits 2 d)
    (hm16 : value m < 16) (hd32 : value d < 32) :
    ∃ date, interpretDate (literal (sgn ++ y ++ '-' :: m ++ '-' :: d)) = some date
      ∧ year date = (if sgn = [] then value y else -value y) ∧ month date = value m ∧ day date = value d := by
  have by4 : 0 ≤ value y ∧ value y < 10 ^ 4 := by
    refine ⟨by unfold value; omega, ?_⟩
    have := ofDigitChars_lt (nDigits_digits hy)
    rw [hy.1] at this
    unfold value; omega
  have m0 : 0 ≤ value m := by unfold value; omega
  have d0 : 0 ≤ value d := by unfold value; omega
  refine ⟨_, by unfold interpretDate; rw [scan_constant hs hy hm hd]; rfl, ?_⟩
  apply C78_date_fields _ ⟨m0, hm16⟩ ⟨d0, hd32⟩
  split <;> omega

/-- The days of the month `m`, in a leap year. -/
def maxDay (m : Int) : Int := if m = 2 then 29 else if m = 4 ∨ m = 6 ∨ m = 9 ∨ m = 11 then 30 else 31

/-- The semantic analysis accepts exactly the texts of which the year is not 0, the month is one of the twelve and the day one of the days
of that month in a leap year. -/
theorem C78_sema_date (s : Str) :
    semaDate s = true ↔ ∃ y m d, scanDate s = some (y, m, d) ∧ y ≠ 0 ∧ (1 ≤ m ∧ m ≤ 12) ∧ (1 ≤ d ∧ d ≤ maxDay m) := by
  unfold semaDate
  split
  · rename_i h; simp [h]
  · rename_i y m d h
    simp only [h, Option.some.injEq, Prod.mk.injEq]
    constructor
    · intro hh
      refine ⟨y, m, d, ⟨rfl, rfl, rfl⟩, ?_⟩
      simp only [Bool.and_eq_true, Bool.not_eq_true', Bool.or_eq_false_iff, Bool.and_eq_false_iff, beq_eq_false_iff_ne,
        decide_eq_false_iff_not, Bool.or_eq_false_iff] at hh
      unfold maxDay
      split_ifs <;> omega
    · rintro ⟨y', m', d', ⟨rfl, rfl, rfl⟩, hy, hm, hd⟩
      simp only [Bool.and_eq_true, Bool.not_eq_true', Bool.or_eq_false_iff, Bool.and_eq_false_iff, beq_eq_false_iff_ne,
        decide_eq_false_iff_not, Bool.or_eq_false_iff]
      unfold maxDay at hd
      split_ifs at hd <;> omega

example : semaDate (literal "2020-02-29".toList) = true := by decide +kernel
example : semaDate (literal "2020-04-31".toList) = false := by decide +kernel

/-- A date constant the lexer and the semantic analysis accept denotes the year, month and day it is written with. -/
theorem C78_accepted_date_constant {sgn y m d : Str} (hs : sgn = [] ∨ sgn = ['-']) (hy : NDigits 4 y) (hm : NDigits 2 m) (hd : NDigits 2 d)
    (hacc : semaDate (literal (sgn ++ y ++ '-' :: m ++ '-' :: d)) = true) :
    ∃ date, interpretDate (literal (sgn ++ y ++ '-' :: m ++ '-' :: d)) = some date
      ∧ year date = (if sgn = [] then value y else -value y) ∧ month date = value m ∧ day date = value d := by
  obtain ⟨y', m', d', h, _, h2, h3⟩ := (C78_sema_date _).1 hacc
  rw [scan_constant hs hy hm hd] at h
  simp only [Option.some.injEq, Prod.mk.injEq] at h
  obtain ⟨_, rfl, rfl⟩ := h
  refine C78_date_constant hs hy hm hd (by omega) ?_
  have : maxDay (value m) ≤ 31 := by unfold maxDay; split_ifs <;> omega
  omega

/-- Bug: 29 February is accepted in every year. -/
theorem C78_bug_leap_year : semaDate (literal "2021-02-29".toList) = true := by decide +kernel

/-- Bug: reading DSV files skips the semantic analysis (src/io/DSVReader.cpp 241), and a month of 16 or more runs into the
year: `2020-16-01` is read as month 0 of 2021. -/
theorem C78_bug_month_overflow : ∃ date, interpretDate (literal "2020-16-01".toList) = some date
    ∧ year date = 2021 ∧ month date = 0 ∧ day date = 1 :=
  ⟨_, by rfl, by decide +kernel, by decide +kernel, by decide +kernel⟩

/-! ### Printed dates and the lexer -/

/-- Non-negative numbers below `10 ^ w` are padded to exactly `w` digits. -/
theorem setw_digits {w : Nat} (hw : 0 < w) {v : Int} (h0 : 0 ≤ v) (h1 : v < 10 ^ w) : NDigits w (setwInternal w v) := by
  have hlen : (Nat.toDigits 10 v.natAbs).length ≤ w := by
    rw [Nat.length_toDigits_le_iff (by decide) hw]
    have : ((10 ^ w : Nat) : Int) = 10 ^ w := by push_cast; rfl
    omega
  unfold setwInternal
  rw [if_neg (by omega)]
  refine ⟨by simp; omega, fun c hc => ?_⟩
  have := digits_pad _ _ c hc
  unfold Char.isDigit at this
  simp only [Bool.and_eq_true, decide_eq_true_eq] at this
  unfold Mutable.Lex.isDec
  simp only [decide_eq_true_eq]
  exact this

theorem setw_neg (w : Nat) {v : Int} (h : v < 0) : setwInternal (w + 1) v = '-' :: setwInternal w (-v) := by
  unfold setwInternal
  rw [if_pos h, if_neg (by omega)]
  simp

/-- What is printed for a date is a date constant for the lexer (and hence can be used in a query), for the years 1 to 9999
before and after Christ. -/
theorem C78_print_date_token {d : BitVec 32} (hy : year d ≠ 0) (h1 : -10 ^ 4 < year d) (h2 : year d < 10 ^ 4) :
    Valid .date (literal (printDate d)) := by
  have hm : NDigits 2 (setwInternal 2 (month d)) := setw_digits (by decide) (by rw [month_eq]; omega) (by rw [month_eq]; omega)
  have hd : NDigits 2 (setwInternal 2 (day d)) := setw_digits (by decide) (by rw [day_eq]; omega) (by rw [day_eq]; omega)
  refine Valid.date ?_
  by_cases hp : year d > 0
  · exact ⟨[], setwInternal 4 (year d), _, _, by simp [printDate, hp], .inl rfl, setw_digits (by decide) (by omega) h2, hm, hd⟩
  · refine ⟨['-'], setwInternal 4 (-year d), _, _, ?_, .inr rfl, setw_digits (by decide) (by omega) (by omega), hm, hd⟩
    simp [printDate, hp, setw_neg 4 (show year d < 0 by omega)]

example : printDate (encodeDate (-44) 3 15) = "-0044-03-15".toList := by decide +kernel
example : Valid .date (literal "-0044-03-15".toList) := by
  have := C78_print_date_token (d := encodeDate (-44) 3 15) (by decide +kernel) (by decide +kernel) (by decide +kernel)
  rwa [show printDate (encodeDate (-44) 3 15) = "-0044-03-15".toList from by decide +kernel] at this

/-- Finding: the year 0 (which the semantic analysis rejects, but a DSV file can contain) is printed with five digits, which is not the text of a date. -/
theorem C78_bug_year_zero : ∃ d, interpretDate (literal "0000-01-01".toList) = some d ∧ printDate d = "00000-01-01".toList :=
  ⟨_, by rfl, by decide +kernel⟩

/-! ### Date times -/

/-- Reading a printed date time yields the same fields — for all values of the fields. -/
theorem C78_print_read_datetime (t : Tm) : interpretDateTime (literal (putTm t)) = some t := by
  have e : ((literal (putTm t)).drop 2).take ((literal (putTm t)).length - 3) = putTm t := by
    simp [literal]
  unfold interpretDateTime
  rw [e]
  have hy : ∀ r, Stops r → readInt ((if t.year < -1900 then '-' :: setwInternal 4 (-(t.year + 1900)) else setwInternal 4 (t.year + 1900)) ++ r)
      = some (t.year + 1900, r) := by
    intro r hr
    split
    · rw [readInt_neg_setw (by omega) hr]; simp
    · exact readInt_setw hr
  unfold getTm putTm
  rw [hy _ (stops_cons (by decide))]
  simp only [expect_cons, Option.bind_eq_bind, Option.bind_some]
  rw [readInt_setw (stops_cons (by decide))]
  simp only [expect_cons, Option.bind_some]
  rw [readInt_setw (stops_cons (by decide))]
  simp only [expect_cons, Option.bind_some]
  rw [readInt_setw (stops_cons (by decide))]
  simp only [expect_cons, Option.bind_some]
  rw [readInt_setw (stops_cons (by decide))]
  simp only [expect_cons, Option.bind_some]
  have := readInt_setw (w := 2) (v := t.sec) stops_nil
  rw [List.append_nil] at this
  rw [this]
  simp

/-- What is printed for a date time is a constant for the lexer, for the years -9999 to 9999. -/
theorem C78_print_datetime_token {t : Tm} (h1 : -10 ^ 4 < t.year + 1900) (h2 : t.year + 1900 < 10 ^ 4) (hmo : 0 ≤ t.mon ∧ t.mon < 12)
    (hd : 1 ≤ t.mday ∧ t.mday ≤ 31) (hh : 0 ≤ t.hour ∧ t.hour < 24) (hmi : 0 ≤ t.min ∧ t.min < 60) (hs : 0 ≤ t.sec ∧ t.sec ≤ 60) :
    Valid .dateTime (literal (putTm t)) := by
  have e : ∃ sgn y, putTm t = (sgn ++ y ++ '-' :: setwInternal 2 (t.mon + 1) ++ '-' :: setwInternal 2 t.mday) ++ ' ' ::
      (setwInternal 2 t.hour ++ ':' :: setwInternal 2 t.min ++ ':' :: setwInternal 2 t.sec)
      ∧ (sgn = [] ∨ sgn = ['-']) ∧ NDigits 4 y := by
    by_cases h : t.year < -1900
    · exact ⟨['-'], setwInternal 4 (-(t.year + 1900)), by simp [putTm, h], .inr rfl, setw_digits (by decide) (by omega) (by omega)⟩
    · exact ⟨[], setwInternal 4 (t.year + 1900), by simp [putTm, h], .inl rfl, setw_digits (by decide) (by omega) h2⟩
  obtain ⟨sgn, y, e, hsgn, hy⟩ := e
  rw [e]
  have D : ∀ v : Int, 0 ≤ v → v < 100 → NDigits 2 (setwInternal 2 v) := fun v a b => setw_digits (by decide) a (by omega)
  exact Valid.dateTime ⟨sgn, y, _, _, rfl, hsgn, hy, D _ (by omega) (by omega), D _ (by omega) (by omega)⟩
    ⟨_, _, _, rfl, D _ (by omega) (by omega), D _ (by omega) (by omega), D _ (by omega) (by omega)⟩

example : putTm ⟨-1944, 2, 15, 12, 5, 9⟩ = "-0044-03-15 12:05:09".toList := by decide +kernel

/-- A datetime constant the lexer accepts denotes the fields it is written with (years count from 1900, months from 0). -/
theorem C78_datetime_constant {sgn y m d h mi sec : Str} (hs : sgn = [] ∨ sgn = ['-']) (hy : NDigits 4 y) (hm : NDigits 2 m) (hd : NDigits 2 d)
    (hh : NDigits 2 h) (hmi : NDigits 2 mi) (hsec : NDigits 2 sec) :
    interpretDateTime (literal ((sgn ++ y ++ '-' :: m ++ '-' :: d) ++ ' ' :: (h ++ ':' :: mi ++ ':' :: sec)))
      = some ⟨(if sgn = [] then value y else -value y) - 1900, value m - 1, value d, value h, value mi, value sec⟩ := by
  have ne : ∀ {w : Str} {n : Nat}, NDigits (n + 1) w → w ≠ [] := by rintro _ _ hw rfl; simp [NDigits] at hw
  have e : ∀ w : Str, ((literal w).drop 2).take ((literal w).length - 3) = w := fun w => by simp [literal]
  unfold interpretDateTime
  rw [e]
  have e2 : (sgn ++ y ++ '-' :: m ++ '-' :: d) ++ ' ' :: (h ++ ':' :: mi ++ ':' :: sec)
      = sgn ++ (y ++ ('-' :: (m ++ ('-' :: (d ++ (' ' :: (h ++ (':' :: (mi ++ (':' :: sec)))))))))) := by simp
  rw [e2]
  have hread : ∀ r, Stops r → readInt (sgn ++ (y ++ r)) = some (if sgn = [] then value y else -value y, r) := by
    intro r hr
    rcases hs with rfl | rfl
    · exact readInt_digits (nDigits_digits hy) (ne hy) hr
    · exact readInt_neg_digits (nDigits_digits hy) (ne hy) hr
  unfold getTm
  rw [hread _ (stops_cons (by decide))]
  simp only [expect_cons, Option.bind_eq_bind, Option.bind_some]
  rw [readInt_digits (nDigits_digits hm) (ne hm) (stops_cons (by decide))]
  simp only [expect_cons, Option.bind_some]
  rw [readInt_digits (nDigits_digits hd) (ne hd) (stops_cons (by decide))]
  simp only [expect_cons, Option.bind_some]
  rw [readInt_digits (nDigits_digits hh) (ne hh) (stops_cons (by decide))]
  simp only [expect_cons, Option.bind_some]
  rw [readInt_digits (nDigits_digits hmi) (ne hmi) (stops_cons (by decide))]
  simp only [expect_cons, Option.bind_some]
  have := readInt_digits (nDigits_digits hsec) (ne hsec) stops_nil
  rw [List.append_nil] at this
  rw [this]
  rfl

/-- The semantic analysis of datetime constants accepts exactly the valid months, days (of a leap year), hours, minutes and seconds (leap seconds
excluded); the assertions hold, since the lexer accepts no signs there. -/
theorem C78_sema_datetime {y m d h mi s : Int} (hh : 0 ≤ h) (hmi : 0 ≤ mi) (hs : 0 ≤ s) :
    ∃ b, semaDateTime y m d h mi s = some b ∧
      (b = true ↔ y ≠ 0 ∧ (1 ≤ m ∧ m ≤ 12) ∧ (1 ≤ d ∧ d ≤ maxDay m) ∧ h < 24 ∧ mi < 60 ∧ s < 60) := by
  unfold semaDateTime
  simp only [Bool.or_eq_true, Bool.and_eq_true, decide_eq_true_eq, beq_iff_eq]
  split
  · exact ⟨_, rfl, by simp; omega⟩
  split
  · exact ⟨_, rfl, by simp; omega⟩
  split
  · refine ⟨_, rfl, ?_⟩
    simp only [Bool.false_eq_true, false_iff]
    unfold maxDay
    split_ifs <;> omega
  rw [if_neg (by omega)]
  split
  · exact ⟨_, rfl, by simp; omega⟩
  rw [if_neg (by omega)]
  split
  · exact ⟨_, rfl, by simp; omega⟩
  rw [if_neg (by omega)]
  split
  · exact ⟨_, rfl, by simp; omega⟩
  refine ⟨_, rfl, ?_⟩
  simp only [true_iff]
  unfold maxDay
  split_ifs <;> omega

example : semaDateTime 2020 2 29 23 59 59 = some true := by decide +kernel

/-! ### Decimals -/

/-- Non-negative decimals are printed exactly: some digits, the point, exactly `scale` digits, and without the point the text denotes the value in
units of the last place. -/
theorem C78_print_decimal {scale : Nat} (hs : 0 < scale) {v : Int} (hv : 0 ≤ v) :
    ∃ I F, printDecimal scale v = I ++ '.' :: F ∧ Digits I ∧ I ≠ [] ∧ Digits F ∧ F.length = scale ∧ value I * 10 ^ scale + value F = v := by
  obtain ⟨n, rfl⟩ := Int.eq_ofNat_of_zero_le hv
  have e10 : ((10 : Int) ^ scale) = ((10 ^ scale : Nat) : Int) := by push_cast; rfl
  have hd : (n : Int).tdiv (10 ^ scale) = ((n / 10 ^ scale : Nat) : Int) := by rw [e10]; rfl
  have hm : (n : Int).tmod (10 ^ scale) = ((n % 10 ^ scale : Nat) : Int) := by rw [e10]; rfl
  have hlt : n % 10 ^ scale < 10 ^ scale := Nat.mod_lt _ (Nat.pow_pos (by decide))
  have hlen : (Nat.toDigits 10 (n % 10 ^ scale)).length ≤ scale := (Nat.length_toDigits_le_iff (by decide) hs).2 hlt
  refine ⟨Nat.toDigits 10 (n / 10 ^ scale),
    List.replicate (scale - (Nat.toDigits 10 (n % 10 ^ scale)).length) '0' ++ Nat.toDigits 10 (n % 10 ^ scale), ?_, digits_toDigits _,
    Nat.toDigits_ne_nil, digits_pad _ _, by simp; omega, ?_⟩
  · unfold printDecimal setwDefault
    rw [hd, hm]
    have s : ∀ k : Nat, showInt (k : Int) = Nat.toDigits 10 k := by intro k; unfold showInt; rw [if_neg (by omega)]; simp
    rw [s, s]
  · unfold value
    rw [ofDigitChars_pad, Nat.ofDigitChars_ten_toDigits, e10]
    have := Nat.div_add_mod n (10 ^ scale)
    rw [mul_comm] at this
    exact_mod_cast this

example : printDecimal 2 12305 = "123.05".toList := by decide +kernel

/-- Bug: every negative decimal with a fraction is printed with a minus sign behind the point. -/
theorem C78_bug_negative_decimal {scale : Nat} {v : Int} (hf : v.tmod (10 ^ scale) < 0) :
    ∃ I F, printDecimal scale v = I ++ '.' :: F ∧ '.' ∉ I ∧ '-' ∈ F := by
  have hnd : ∀ k, '.' ∉ Nat.toDigits 10 k := fun k h => by have := digits_toDigits k _ h; simp at this
  refine ⟨_, _, rfl, ?_, ?_⟩
  · unfold showInt
    split
    · simp [hnd]
    · exact hnd _
  · unfold setwDefault showInt
    rw [if_pos hf]
    simp

/-- For example −1.50 and −0.05. -/
theorem C78_bug_negative_decimal_texts :
    printDecimal 2 (-150) = "-1.-50".toList ∧ printDecimal 2 (-5) = "0.-5".toList := by decide +kernel

end Mutable.Calendar
