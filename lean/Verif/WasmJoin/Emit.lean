import Verif.WasmJoin.Phases
import Mathlib.Tactic.Ring
import Mathlib.Tactic.Linarith

/-! The values of aggregates on the pairs of two lists of rows. -/
namespace Mutable.WasmJoin
open Mutable.WasmAgg

section
variable {B P : Type}

/-- All pairs. -/
def cross (bs : List B) (ps : List P) : List (B × P) := bs.flatMap fun b => ps.map fun p => (b, p)

theorem cross_length (bs : List B) (ps : List P) : (cross bs ps).length = bs.length * ps.length := by
  induction bs with
  | nil => simp [cross]
  | cons b bs ih =>
    simp only [cross, List.flatMap_cons, List.length_append, List.length_map, List.length_cons] at *
    rw [ih]; ring

theorem filterMap_fst_map {β : Type} (f : B → Option β) (b : B) (ps : List P) :
    (ps.map fun p => (b, p)).filterMap (fun x => f x.1) =
      match f b with
      | none => []
      | some v => List.replicate ps.length v := by
  induction ps with
  | nil => cases f b <;> rfl
  | cons p ps ih =>
    simp only [List.map_cons, List.filterMap_cons, ih]
    cases f b <;> simp [List.replicate_succ]

theorem filterMap_snd_map {β : Type} (f : P → Option β) (b : B) (ps : List P) :
    (ps.map fun p => (b, p)).filterMap (fun x => f x.2) = ps.filterMap f := by
  rw [List.filterMap_map]; rfl

theorem cross_cons (b : B) (bs : List B) (ps : List P) : cross (b :: bs) ps = (ps.map fun p => (b, p)) ++ cross bs ps := rfl

theorem sum_replicate' {S : Type} [CommRing S] (n : Nat) (x : S) : (List.replicate n x).sum = n * x := by
  induction n with
  | zero => simp
  | succ n ih => rw [List.replicate_succ, List.sum_cons, ih]; push_cast; ring

theorem cross_fst_sum {β S : Type} [CommRing S] (f : B → Option β) (w : β → S) (bs : List B) (ps : List P) :
    (((cross bs ps).filterMap fun x => f x.1).map w).sum = ps.length * ((bs.filterMap f).map w).sum := by
  induction bs with
  | nil => simp [cross]
  | cons b bs ih =>
    rw [cross_cons, List.filterMap_append, List.map_append, List.sum_append, ih, filterMap_fst_map, List.filterMap_cons]
    cases f b with
    | none => simp
    | some v => simp only [List.map_replicate, sum_replicate', List.map_cons, List.sum_cons]; ring

theorem cross_snd_sum {β S : Type} [CommRing S] (f : P → Option β) (w : β → S) (bs : List B) (ps : List P) :
    (((cross bs ps).filterMap fun x => f x.2).map w).sum = bs.length * ((ps.filterMap f).map w).sum := by
  induction bs with
  | nil => simp [cross]
  | cons b bs ih =>
    rw [cross_cons, List.filterMap_append, List.map_append, List.sum_append, ih, filterMap_snd_map, List.length_cons]
    push_cast; ring

/-- The numbers of one list are those of the other one, each of them `n` times as often. -/
structure Rep (n : Nat) (X Y : List ℚ) : Prop where
  mem : ∀ x, x ∈ Y ↔ x ∈ X
  len : Y.length = n * X.length
  sum : Y.sum = n * X.sum

theorem cross_fst_rep (f : B → Option ℚ) (bs : List B) (ps : List P) (hp : ps ≠ []) :
    Rep ps.length (bs.filterMap f) ((cross bs ps).filterMap fun x => f x.1) := by
  refine ⟨fun x => ?_, ?_, ?_⟩
  · simp only [List.mem_filterMap, cross, List.mem_flatMap, List.mem_map]
    constructor
    · rintro ⟨_, ⟨b, hb, p, _, rfl⟩, h⟩; exact ⟨b, hb, h⟩
    · rintro ⟨b, hb, h⟩
      obtain ⟨p, hp⟩ := List.exists_mem_of_ne_nil _ hp
      exact ⟨(b, p), ⟨b, hb, p, hp, rfl⟩, h⟩
  · have := cross_fst_sum (S := ℚ) f (fun _ => 1) bs ps
    simp only [List.map_const', sum_replicate', mul_one] at this
    exact_mod_cast this
  · have := cross_fst_sum (S := ℚ) f id bs ps
    simpa using this

theorem cross_snd_rep (f : P → Option ℚ) (bs : List B) (ps : List P) (hb : bs ≠ []) :
    Rep bs.length (ps.filterMap f) ((cross bs ps).filterMap fun x => f x.2) := by
  refine ⟨fun x => ?_, ?_, ?_⟩
  · simp only [List.mem_filterMap, cross, List.mem_flatMap, List.mem_map]
    constructor
    · rintro ⟨_, ⟨b, _, p, hp, rfl⟩, h⟩; exact ⟨p, hp, h⟩
    · rintro ⟨p, hp, h⟩
      obtain ⟨b, hb⟩ := List.exists_mem_of_ne_nil _ hb
      exact ⟨(b, p), ⟨b, hb, p, hp, rfl⟩, h⟩
  · have := cross_snd_sum (S := ℚ) f (fun _ => 1) bs ps
    simp only [List.map_const', sum_replicate', mul_one] at this
    exact_mod_cast this
  · have := cross_snd_sum (S := ℚ) f id bs ps
    simpa using this

theorem Rep.nil_iff {n : Nat} {X Y : List ℚ} (h : Rep n X Y) : Y = [] ↔ X = [] := by
  rw [List.eq_nil_iff_forall_not_mem, List.eq_nil_iff_forall_not_mem]
  exact forall_congr' fun x => not_congr (h.mem x)

end

section
variable {R S : Type} {ev : Arg → R → Option Val} {ev' : Arg → S → Option Val} {a : Arg} {rs : List R} {ss : List S}
  {n : Nat} {c : Option Val}

theorem transfer_min (rep : Rep n (Interp.argVals (argNum ev a) rs) (Interp.argVals (argNum ev' a) ss))
    (h : IsAgg ev (.min a) rs c) : IsAgg ev' (.min a) ss c := by
  obtain ⟨q, h1, h2⟩ := h
  refine ⟨q, ?_, h2⟩
  simpa only [Agg.interp, Interp.AggSpec, rep.nil_iff, rep.mem] using h1

theorem transfer_max (rep : Rep n (Interp.argVals (argNum ev a) rs) (Interp.argVals (argNum ev' a) ss))
    (h : IsAgg ev (.max a) rs c) : IsAgg ev' (.max a) ss c := by
  obtain ⟨q, h1, h2⟩ := h
  refine ⟨q, ?_, h2⟩
  simpa only [Agg.interp, Interp.AggSpec, rep.nil_iff, rep.mem] using h1

theorem transfer_avg (hn : 0 < n) (rep : Rep n (Interp.argVals (argNum ev a) rs) (Interp.argVals (argNum ev' a) ss))
    (h : IsAgg ev (.avg a) rs c) : IsAgg ev' (.avg a) ss c := by
  obtain ⟨q, h1, h2⟩ := h
  refine ⟨q, ?_, h2⟩
  simp only [Agg.interp, Interp.AggSpec, rep.nil_iff, rep.len, rep.sum] at h1 ⊢
  split
  · next h => simpa [h] using h1
  · next h =>
    rw [if_neg h] at h1
    rw [h1]
    push_cast
    have : (n : ℚ) ≠ 0 := by positivity
    rw [mul_div_mul_left _ _ this]

/-- A number that is multiplied. -/
theorem shows_mul {ty : Ty} {q : ℚ} {v : Val} (hs : ty.size = 64) (h : Shows ty (some v) (some q))
    (hno : ∀ z, v = .i z → -2 ^ 63 ≤ z * n ∧ z * n < 2 ^ 63) : Shows ty (some (vmul ty v n)) (some (n * q)) := by
  cases v with
  | i z =>
    have hw : wrap ty.size (z * n) = z * n := by
      rw [hs]
      exact wrap_id (hno z rfl).1 (hno z rfl).2 (by norm_num)
    simp only [Shows, vmul, hw] at *
    cases ty <;> simp_all [Ty.denotes]
    · rw [← h]; ring
    · rw [← h]; ring
  | d x =>
    simp only [Shows, vmul] at *
    cases ty <;> cases x <;> simp_all [Ty.denotes, Dbl.mul]
    · ring
    · ring

theorem transfer_countStar (hlen : ss.length = n * rs.length) (hl : ss.length < 2 ^ 63) (h : IsAgg ev .countStar rs c) :
    IsAgg ev' .countStar ss (c.map fun v => vmul (Agg.ty .countStar) v n) := by
  obtain ⟨q, h1, h2⟩ := h
  simp only [Agg.interp, Interp.AggSpec] at h1
  subst h1
  cases c with
  | none => simp [Shows] at h2
  | some v =>
    refine ⟨some (n * rs.length : ℚ), ?_, ?_⟩
    · simp only [Agg.interp, Interp.AggSpec, hlen]; push_cast; rfl
    · refine shows_mul rfl h2 ?_
      rintro z rfl
      simp only [Shows, Agg.ty, Ty.denotes, Option.some.injEq] at h2
      have h3 : z = rs.length := by exact_mod_cast h2
      have h4 : z * n = (ss.length : Int) := by rw [h3, hlen]; push_cast; ring
      rw [h4]; constructor <;> omega

theorem transfer_count (rep : Rep n (Interp.argVals (argNum ev a) rs) (Interp.argVals (argNum ev' a) ss))
    (hl : ss.length < 2 ^ 63) (h : IsAgg ev (.count a) rs c) :
    IsAgg ev' (.count a) ss (c.map fun v => vmul (Agg.ty (.count a)) v n) := by
  obtain ⟨q, h1, h2⟩ := h
  simp only [Agg.interp, Interp.AggSpec] at h1
  subst h1
  cases c with
  | none => simp [Shows] at h2
  | some v =>
    refine ⟨some (n * (Interp.argVals (argNum ev a) rs).length : ℚ), ?_, ?_⟩
    · simp only [Agg.interp, Interp.AggSpec, rep.len]; push_cast; rfl
    · refine shows_mul rfl h2 ?_
      rintro z rfl
      simp only [Shows, Agg.ty, Ty.denotes, Option.some.injEq] at h2
      have h3 : z = (Interp.argVals (argNum ev a) rs).length := by exact_mod_cast h2
      have h4 : z * n = ((Interp.argVals (argNum ev' a) ss).length : Int) := by rw [h3, rep.len]; push_cast; ring
      have h5 : (Interp.argVals (argNum ev' a) ss).length ≤ ss.length := filterMap_length_le _ _
      rw [h4]; constructor <;> omega

theorem transfer_sum (rep : Rep n (Interp.argVals (argNum ev a) rs) (Interp.argVals (argNum ev' a) ss))
    (hk : ∀ v ∈ args ev a rs, Kind a.ty v)
    (hraw : ((ss.filterMap (ev' a)).map Val.raw).sum = n * ((rs.filterMap (ev a)).map Val.raw).sum)
    (hfit : -2 ^ 63 ≤ ((ss.filterMap (ev' a)).map Val.raw).sum ∧ ((ss.filterMap (ev' a)).map Val.raw).sum < 2 ^ 63)
    (h : IsAgg ev (.sum a) rs c) :
    IsAgg ev' (.sum a) ss (c.map fun v => vmul (Agg.ty (.sum a)) v n) := by
  obtain ⟨q, h1, h2⟩ := h
  simp only [Agg.interp, Interp.AggSpec] at h1
  have hty : (Agg.ty (.sum a)).size = 64 := by simp only [Agg.ty]; cases a.ty <;> rfl
  by_cases he : Interp.argVals (argNum ev a) rs = []
  · rw [if_pos he] at h1
    subst h1
    cases c with
    | none => exact ⟨none, by simp [Agg.interp, Interp.AggSpec, rep.nil_iff, he], trivial⟩
    | some v => simp [Shows] at h2
  · rw [if_neg he] at h1
    subst h1
    cases c with
    | none => simp [Shows] at h2
    | some v =>
      refine ⟨some (n * (Interp.argVals (argNum ev a) rs).sum), ?_, ?_⟩
      · simp [Agg.interp, Interp.AggSpec, rep.nil_iff, he, rep.sum]
      · refine shows_mul hty h2 ?_
        rintro z rfl
        have hz : z = ((args ev a rs).map Val.raw).sum := by
          rw [argVals_eq hk, sum_den] at h2
          have hp : (0 : ℚ) < 10 ^ a.ty.scale := by positivity
          cases hat : a.ty with
          | int w =>
            have hs := sum_raw (l := args ev a rs) (ty := a.ty) (by rw [hat]; rfl) hk
            rw [← hs] at h2
            simp only [Shows, Agg.ty, hat, Ty.denotes, Option.some.injEq, Ty.scale] at h2
            simp only [pow_zero, div_one] at h2
            exact_mod_cast h2
          | dec w s =>
            have hs := sum_raw (l := args ev a rs) (ty := a.ty) (by rw [hat]; rfl) hk
            rw [← hs] at h2
            simp only [Shows, Agg.ty, hat, Ty.denotes, Option.some.injEq, Ty.scale] at h2
            have hp' : (10 : ℚ) ^ s ≠ 0 := by positivity
            have := (div_left_inj' hp').1 h2
            exact_mod_cast this
          | flt => simp [Shows, Agg.ty, hat, Ty.denotes] at h2
          | dbl => simp [Shows, Agg.ty, hat, Ty.denotes] at h2
        have hz' : z * n = ((ss.filterMap (ev' a)).map Val.raw).sum := by
          rw [hraw, hz]; simp only [args]; ring
        rw [hz']
        exact hfit

end

section
variable {B P V : Type} {evB : Arg → B → Option Val} {evP : Arg → P → Option Val} {inB inP : Arg → Bool} {aggs : List Agg}

theorem avgEntry_none {g : Agg} (hn : ∀ a, g ≠ .avg a) : avgEntry aggs g = none := by
  cases g with
  | avg a => exact absurd rfl (hn a)
  | _ => rfl

/-- The emitted value depends only on the entries with the same argument. -/
theorem emit_congr {g : Agg} (hg : g ∈ aggs) {f f' : Info → AState}
    (h : ∀ i ∈ infos aggs, i.arg = g.arg → f i = f' i) :
    emit aggs (infos aggs) ((infos aggs).map f) g = emit aggs (infos aggs) ((infos aggs).map f') g := by
  by_cases ha : ∃ a, g = .avg a
  · obtain ⟨a, rfl⟩ := ha
    by_cases h32 : a.ty.size ≤ 32
    · rw [emit_lazy hg h32, emit_lazy hg h32, h _ (sumInfo_mem hg h32) (sumInfo_fn aggs a).2.1,
        h _ (cntInfo_mem hg) (cntInfo_fn aggs a).2]
    · rw [emit_running hg h32, emit_running hg h32, h _ (avg_mem hg h32) rfl]
  · have hn : ∀ a, g ≠ .avg a := fun a e => ha ⟨a, e⟩
    rw [emit_direct hg hn, emit_direct hg hn, h _ (info_mem hg hn) rfl]

theorem zero_raw (ty : Ty) : (zero ty).raw = 0 := by cases ty <;> rfl

theorem sum_zero_raw {R : Type} {ev : Arg → R → Option Val} {inS : Arg → Bool} {a : Arg} (h : inS a = false) (rs : List R) :
    ((rs.filterMap (evX ev inS a)).map Val.raw).sum = 0 := by
  induction rs with
  | nil => rfl
  | cons r rs ih => simp [List.filterMap_cons, evX, h, zero_raw] at *; simpa using ih

theorem fit_of_mul {n : Nat} {s : Int} (hn : 0 < n) (h : -2 ^ 63 ≤ n * s ∧ n * s < 2 ^ 63) : -2 ^ 63 ≤ s ∧ s < 2 ^ 63 := by
  have h1 : (1 : Int) ≤ n := by exact_mod_cast hn
  rcases le_or_gt 0 s with hs | hs
  · have : s ≤ n * s := by nlinarith
    omega
  · have : (n : Int) * s ≤ s := by nlinarith
    omega

theorem evX_in {R : Type} {ev : Arg → R → Option Val} {inS : Arg → Bool} {a : Arg} (h : inS a = true) :
    evX ev inS a = ev a := by funext r; simp [evX, h]

theorem sumsFit_B {bs : List B} {ps : List P} (hp : ps ≠ []) (h : SumsFit (argOf evB evP inB) aggs (cross bs ps)) :
    SumsFit (evX evB inB) aggs bs := by
  intro a ha
  cases hin : inB a with
  | false => rw [sum_zero_raw hin]; norm_num
  | true =>
    have := h a ha
    have e : argOf evB evP inB a = fun x : B × P => evB a x.1 := by funext x; simp [argOf, hin]
    rw [e, cross_fst_sum] at this
    rw [evX_in hin]
    exact fit_of_mul (List.length_pos_iff.2 hp) this

theorem sumsFit_P (hpt : Partitioned inB inP aggs) {bs : List B} {ps : List P} (hb : bs ≠ [])
    (h : SumsFit (argOf evB evP inB) aggs (cross bs ps)) : SumsFit (evX evP inP) aggs ps := by
  intro a ha
  have hf := hpt _ ha a rfl
  cases hin : inB a with
  | true => rw [sum_zero_raw (by rw [hf, hin]; rfl)]; norm_num
  | false =>
    have := h a ha
    have e : argOf evB evP inB a = fun x : B × P => evP a x.2 := by funext x; simp [argOf, hin]
    rw [e, cross_snd_sum] at this
    rw [evX_in (by rw [hf, hin]; rfl)]
    exact fit_of_mul (List.length_pos_iff.2 hb) this

/-- The value of an aggregate of a group. -/
theorem gEmit_spec (hpt : Partitioned inB inP aggs) {g : Agg} (hg : g ∈ aggs) {bs : List B} {ps : List P} (hb : bs ≠ [])
    (hp : ps ≠ []) (okB : ∀ r ∈ bs, RowOk (evX evB inB) aggs r) (okP : ∀ r ∈ ps, RowOk (evX evP inP) aggs r)
    (hlenB : bs.length < 2 ^ 32) (hlenP : ps.length < 2 ^ 32) (hlen : bs.length * ps.length < 2 ^ 63)
    (hsum : SumsFit (argOf evB evP inB) aggs (cross bs ps)) (hdec : NoScaledAvg aggs) (e : Entry V)
    (hea : e.aggs = (infos aggs).map (gT evB evP inB inP bs ps)) (hep : e.pcnt = ps.length)
    (heb : e.bcnt = if needsBuildCounter inP aggs then some (bs.length : Int) else none) :
    IsAgg (argOf evB evP inB) g (cross bs ps) (gEmit inP aggs e g) := by
  have hcl : (cross bs ps).length < 2 ^ 63 := by rw [cross_length]; exact hlen
  have hbl := List.length_pos_iff.2 hb
  have hpl := List.length_pos_iff.2 hp
  -- the value on one side
  have hB : (∀ i : Info, i.arg = g.arg → boundB inB i = true) →
      IsAgg (evX evB inB) g bs (emit aggs (infos aggs) e.aggs g) := by
    intro h
    rw [hea, emit_congr hg (f' := oT (evX evB inB) bs) (fun i _ hi => by simp [gT, h i hi])]
    exact emit_spec hg okB hlenB (sumsFit_B hp hsum) hdec (tight_oT okB hb)
  have hP : (∀ i : Info, i.arg = g.arg → boundB inB i = false) →
      IsAgg (evX evP inP) g ps (emit aggs (infos aggs) e.aggs g) := by
    intro h
    rw [hea, emit_congr hg (f' := oT (evX evP inP) ps) (fun i _ hi => by simp [gT, h i hi])]
    exact emit_spec hg okP hlenP (sumsFit_P hpt hb hsum) hdec (tight_oT okP hp)
  have hdir : (∀ a, g ≠ .avg a) → (getSt (infos aggs) e.aggs (.agg g)).cell = emit aggs (infos aggs) e.aggs g := by
    intro hn
    simp only [emit, avgEntry_none hn]
  cases hga : g.arg with
  | none =>
    cases g with
    | countStar =>
      simp only [gEmit, hdir (by simp), hep]
      have h1 := hB (fun i hi => by simp [boundB, hi, hga])
      exact transfer_countStar (by rw [cross_length]; ring) hcl h1
    | _ => simp [Agg.arg] at hga
  | some a =>
    have hflip := hpt g hg a hga
    cases hin : inB a with
    | true =>
      have hin' : inP a = false := by rw [hflip, hin]; rfl
      have h1 := hB (fun i hi => by simp [boundB, argIn, hi, hga, hin])
      have e1 : argOf evB evP inB a = fun x : B × P => evX evB inB a x.1 := by funext x; simp [argOf, hin, evX]
      have e2 : argNum (argOf evB evP inB) a = fun x : B × P => argNum (evX evB inB) a x.1 := by
        funext x; simp only [argNum, e1]
      have rep : Rep ps.length (Interp.argVals (argNum (evX evB inB) a) bs)
          (Interp.argVals (argNum (argOf evB evP inB) a) (cross bs ps)) := by
        rw [e2]; exact cross_fst_rep _ bs ps hp
      have hk := fun v hv => (args_fits hg hga okB v hv).kind
      cases g with
      | countStar => simp [Agg.arg] at hga
      | count b =>
        simp only [Agg.arg, Option.some.injEq] at hga; subst hga
        simp only [gEmit, gScale, hin', Bool.false_eq_true, if_false, hdir (by simp), hep]
        exact transfer_count rep hcl h1
      | sum b =>
        simp only [Agg.arg, Option.some.injEq] at hga; subst hga
        simp only [gEmit, gScale, hin', Bool.false_eq_true, if_false, hdir (by simp), hep]
        exact transfer_sum rep hk (by rw [e1, cross_fst_sum]) (hsum b hg) h1
      | avg b =>
        simp only [Agg.arg, Option.some.injEq] at hga; subst hga
        exact transfer_avg hpl rep h1
      | min b =>
        simp only [Agg.arg, Option.some.injEq] at hga; subst hga
        simp only [gEmit, hdir (by simp)]
        exact transfer_min rep h1
      | max b =>
        simp only [Agg.arg, Option.some.injEq] at hga; subst hga
        simp only [gEmit, hdir (by simp)]
        exact transfer_max rep h1
    | false =>
      have hin' : inP a = true := by rw [hflip, hin]; rfl
      have h1 := hP (fun i hi => by simp [boundB, argIn, hi, hga, hin])
      have e1 : argOf evB evP inB a = fun x : B × P => evX evP inP a x.2 := by funext x; simp [argOf, hin, evX, hin']
      have e2 : argNum (argOf evB evP inB) a = fun x : B × P => argNum (evX evP inP) a x.2 := by
        funext x; simp only [argNum, e1]
      have rep : Rep bs.length (Interp.argVals (argNum (evX evP inP) a) ps)
          (Interp.argVals (argNum (argOf evB evP inB) a) (cross bs ps)) := by
        rw [e2]; exact cross_snd_rep _ bs ps hb
      have hk := fun v hv => (args_fits hg hga okP v hv).kind
      have hbc : (∀ a, g ≠ .avg a) → g.fn = .count ∨ g.fn = .sum → e.bcnt.getD 0 = (bs.length : Int) := by
        intro hn hfn
        have : needsBuildCounter inP aggs = true := by
          simp only [needsBuildCounter, List.any_eq_true]
          refine ⟨g.info, info_mem hg hn, ?_⟩
          have hia : g.info.arg = some a := hga
          have hif : g.info.fn = g.fn := rfl
          simp only [argIn, hia, hin', hif]
          rcases hfn with h | h <;> simp [h]
        rw [heb, if_pos this]; rfl
      cases g with
      | countStar => simp [Agg.arg] at hga
      | count b =>
        simp only [Agg.arg, Option.some.injEq] at hga; subst hga
        simp only [gEmit, gScale, hin', if_true, hdir (by simp), hbc (by simp) (.inl rfl)]
        exact transfer_count rep hcl h1
      | sum b =>
        simp only [Agg.arg, Option.some.injEq] at hga; subst hga
        simp only [gEmit, gScale, hin', if_true, hdir (by simp), hbc (by simp) (.inr rfl)]
        exact transfer_sum rep hk (by rw [e1, cross_snd_sum]) (hsum b hg) h1
      | avg b =>
        simp only [Agg.arg, Option.some.injEq] at hga; subst hga
        exact transfer_avg hbl rep h1
      | min b =>
        simp only [Agg.arg, Option.some.injEq] at hga; subst hga
        simp only [gEmit, hdir (by simp)]
        exact transfer_min rep h1
      | max b =>
        simp only [Agg.arg, Option.some.injEq] at hga; subst hga
        simp only [gEmit, hdir (by simp)]
        exact transfer_max rep h1

end

end Mutable.WasmJoin
