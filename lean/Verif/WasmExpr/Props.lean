import Verif.WasmExpr.Filter

/-!
C48: in the WebAssembly backend, the code generated for an expression, a condition or a projection computes the SQL value
of the expression, for every tuple; it neither traps nor invents or loses NULLs.

Partial: the full claim is false of the code.  A division of integers one operand of which is NULL is executed on whatever
the value variable of the NULL holds, so that `a / NULL` can trap instead of being NULL (`C48_null_divisor`); the theorems
say that this is the only reason why code traps for a row whose SQL value exists.  Further defects are at the end.
-/
namespace Mutable.WX
open SQL
variable {P : FP}

/-! ### Theorems -/

/-- **Expressions.**  For every expression accepted by the semantic analysis and supported by the generator, code of the
right type is generated; and for every tuple over which the expression has a SQL value, that code yields a result that
shows exactly this value (NULL for NULL, and otherwise a word that represents the value), unless it traps, which happens
only if the expression contains a division of integers with a NULL operand. -/
theorem C48_expression_partial (e : X P) (τ : Ty) (h : WellFormed e τ) :
    ∃ c, compile e = some c ∧ c.t = τ.d ∧ ∀ σ ρ v, Holds σ ρ e → sem ρ e = some v →
      v.Has τ ∧ ((∃ r, run σ c = some r ∧ Shows ⟨c.t, r⟩ v) ∨ (run σ c = none ∧ DividesNull ρ e)) := by
  obtain ⟨c, hc, ht, hg⟩ := compile_ok e τ h.typed h.supported h.literals
  exact ⟨c, hc, ht, fun σ ρ v hh hv => ⟨(hg σ ρ v hh hv).1, run_ok (hg σ ρ v hh hv).2⟩⟩

/-- **NOT NULL.**  An expression that the planner takes for never NULL is never NULL. -/
theorem C48_not_null (e : X P) (σ : Locals P) (ρ : Nat → V P) (v : V P) (h : e.canBeNull = false) (hh : Holds σ ρ e)
    (hv : sem ρ e = some v) : v ≠ .null := canBeNull_ok e v h hh hv

/-- **Supported expressions.**  Of the expressions accepted by the semantic analysis (with literals in range), code is
generated exactly for those without `%` or `~` on floating-point numbers; the other ones run into `M_unreachable`. -/
theorem C48_supported (e : X P) (τ : Ty) (h : e.ty = some τ) (hl : LitOK e) :
    (∃ c, compile e = some c) ↔ Supported e := by
  constructor
  · rintro ⟨c, hc⟩; exact (supported_of_compile e τ h c hc).1
  · intro hs
    obtain ⟨c, hc, -⟩ := compile_ok e τ h hs hl
    exact ⟨c, hc⟩

/-- **Filters.**  The filter passes on exactly the rows for which the condition is TRUE (neither FALSE nor NULL), unless it
traps because of a division with a NULL operand. -/
theorem C48_filter_partial (cnf : Cnf P) (h : CnfOK cnf) :
    ∃ c, cnfCode cnf = some c ∧ ∀ σ ρ k, CnfHolds σ ρ cnf → semCnf ρ cnf = some k →
      keep σ c = some (decide (k = .T)) ∨ (keep σ c = none ∧ CnfDividesNull ρ cnf) := by
  obtain ⟨c, hc, hg⟩ := cnf_ok h
  exact ⟨c, hc, fun σ ρ k hh hk => branch_of_ev (hg σ ρ k hh hk).isTrue⟩

/-- **Lazy disjunctive filters.**  The filter that tests the literals of a clause one after the other passes on a row iff
some literal is TRUE, even if a literal behind the first one that is TRUE has no value (it would divide by zero). -/
theorem C48_lazy_filter_partial (C : List (X P × Bool)) (h : ClauseOK C) (σ : Locals P) (ρ : Nat → V P) (b : Bool)
    (hh : ClauseHolds σ ρ C) (hb : firstTrue ρ C = some b) :
    lazyKeep σ C = some b ∨ (lazyKeep σ C = none ∧ ClauseDividesNull ρ C) := lazy_ok C σ ρ b h hh hb

/-- The value of a clause and its evaluation from the left agree, so that both kinds of filters pass on the same rows. -/
theorem C48_lazy_agrees_partial (C : List (X P × Bool)) (hne : C ≠ []) (h : ClauseOK C) :
    ∃ c, cnfCode [C] = some c ∧ ∀ σ ρ k, ClauseHolds σ ρ C → semClause ρ C = some k →
      keep σ c = lazyKeep σ C ∨ ClauseDividesNull ρ C := by
  obtain ⟨c, hc, hg⟩ := C48_filter_partial [C] (fun D hD => by
    rcases List.mem_singleton.mp hD with rfl; exact ⟨hne, h⟩)
  refine ⟨c, hc, fun σ ρ k hh hk => ?_⟩
  have h1 := hg σ ρ k (fun D hD => by rcases List.mem_singleton.mp hD with rfl; exact hh) (by
    simp [semCnf, hk])
  have h2 := C48_lazy_filter_partial C h σ ρ _ hh (firstTrue_of_semClause C k hk)
  rcases h1 with h1 | ⟨-, D, hD, hd⟩
  · rcases h2 with h2 | ⟨-, hd⟩
    · exact .inl (h1.trans h2.symm)
    · exact .inr hd
  · rcases List.mem_singleton.mp hD with rfl
    exact .inr hd

/-- **Projections above filters.**  `SELECT es WHERE cnf` with a branching filter: for a row for which the condition is not
TRUE nothing is computed and nothing results (the expressions need not even have a value); for the other ones, the
result shows the values of the expressions. -/
theorem C48_pipeline_partial (cnf : Cnf P) (es : List (X P)) (h : CnfOK cnf) (he : ∀ e ∈ es, ∃ τ, WellFormed e τ) :
    ∃ f cs, cnfCode cnf = some f ∧ compileList es = some cs ∧ ∀ σ ρ k, CnfHolds σ ρ cnf →
      (∀ e ∈ es, Holds σ ρ e) → semCnf ρ cnf = some k →
      (k ≠ .T → branching σ f cs = some none ∨ (branching σ f cs = none ∧ CnfDividesNull ρ cnf)) ∧
      (∀ vs, k = .T → semList ρ es = some vs →
        (∃ rs, branching σ f cs = some (some rs) ∧ List.Forall₂ Shows rs vs) ∨
          (branching σ f cs = none ∧ (CnfDividesNull ρ cnf ∨ ∃ e ∈ es, DividesNull ρ e))) := by
  obtain ⟨f, hf, hg⟩ := C48_filter_partial cnf h
  obtain ⟨cs, hcs, hp⟩ := project_ok es he
  refine ⟨f, cs, hf, hcs, fun σ ρ k hh hhe hk => ⟨fun hT => ?_, fun vs hT hvs => ?_⟩⟩
  · rcases hg σ ρ k hh hk with r | ⟨r, hd⟩
    · exact .inl (by simp [branching, r, hT])
    · exact .inr ⟨by simp [branching, r], hd⟩
  · subst hT
    rcases hg σ ρ .T hh hk with r | ⟨r, hd⟩
    · rcases hp σ ρ vs hhe hvs with ⟨rs, hrs, hf⟩ | ⟨hrs, hd⟩
      · exact .inl ⟨rs, by simp [branching, r, hrs], hf⟩
      · exact .inr ⟨by simp [branching, r, hrs], .inr hd⟩
    · exact .inr ⟨by simp [branching, r], .inl hd⟩

/-- **Predication.**  With a predicated filter the result is the same, except that the query also traps if a projected
expression traps on a row that does not qualify. -/
theorem C48_predicated (σ : Locals P) (f : BCode P) (cs : List (Code P)) :
    (∀ r, predicated σ f cs = some r → branching σ f cs = some r) ∧
      (project σ cs ≠ none → predicated σ f cs = branching σ f cs) := by
  simp only [predicated, branching]
  cases project σ cs with
  | none => exact ⟨fun r h => by simp at h, fun h => absurd rfl h⟩
  | some vs =>
    cases keep σ f with
    | none => exact ⟨fun r h => by simp at h, fun _ => rfl⟩
    | some b => cases b <;> exact ⟨fun r h => h, fun _ => rfl⟩

/-! ### The hypotheses can be met -/

/-- A toy instance of the floating-point instructions. -/
def toyFl : Fl := ⟨Int, fun a => -a, (· + ·), (· - ·), (· * ·), fun a b => a / b, fun c a b => intCmp c a b, id⟩
def toy : FP := ⟨toyFl, toyFl, id⟩

/-- Local variables given by lists of integers. -/
def toyLocals (l32 l64 : List Int) : Locals toy
  | .i32, i => BitVec.ofInt 32 (l32.getD i 0)
  | .i64, i => BitVec.ofInt 64 (l64.getD i 0)
  | .f32, _ => (0 : Int)
  | .f64, _ => (0 : Int)

/-- Columns `a INT(4)` (nullable), `b INT(4) NOT NULL`, `c INT(8) NOT NULL`. -/
def colA : X toy := .attr 0 (.int .w4) true
def colB : X toy := .attr 1 (.int .w4) false
def colC : X toy := .attr 2 (.int .w8) false

/-- `a + c / 3 > 10 AND NOT (a IS NULL)`. -/
def demo : X toy := .and (.cmp .gt (.ar .add colA (.ar .div colC (.intC .w4 3))) (.intC .w4 10)) (.un .not (.isNull colA))

/-- The tuple `a = 5, b = 2, c = -7` and one with `a = NULL`. -/
def row1 : Nat → V toy
  | 0 => .int 5
  | 1 => .int 2
  | _ => .int (-7)
def row2 : Nat → V toy
  | 0 => .null
  | 1 => .int 0
  | _ => .int 20

example : WellFormed demo .bool :=
  ⟨rfl, by simp [demo, Supported, colA, colC], by simp [demo, LitOK, colA, colC, Fits, IW.bits]⟩

example : Holds (toyLocals [5, 0, 2, 0] [0, 0, 0, 0, -7]) row1 demo := by
  simp [demo, Holds, colA, colC, row1, V.Has, Fits, IW.bits, Rep, Rep.RepI, Ty.d, toyLocals, nullBit, V.isNull, b2w]
example : Holds (toyLocals [77, 1, 0, 0] [0, 0, 0, 0, 20]) row2 demo := by
  simp [demo, Holds, colA, colC, row2, V.Has, Fits, IW.bits, Rep, Rep.RepI, Ty.d, toyLocals, nullBit, V.isNull, b2w]

example : sem row1 demo = some (.bool false) := by rfl
example : sem row2 demo = some (.bool false) := by rfl
/-- The condition `a + b > 3` is NULL for `a = NULL`. -/
example : sem row2 (.cmp .gt (.ar .add colA colB) (.intC .w4 3)) = some .null := by rfl
/-- `b = 0 OR c / b > 1` is TRUE from the left for `b = 0`, although its second literal has no value. -/
example : firstTrue row2 [(.cmp .eq colB (.intC .w4 0), false), (.cmp .gt (.ar .div colC colB) (.intC .w4 1), false)]
    = some true := by rfl
example : semClause row2 [(.cmp .eq colB (.intC .w4 0), false), (.cmp .gt (.ar .div colC colB) (.intC .w4 1), false)]
    = none := by rfl

/-! ### Defects -/

/-- The code of an expression, run. -/
def go (σ : Locals toy) (e : X toy) : Option (RVal toy) := do
  let c ← compile e
  let r ← run σ c
  pure ⟨c.t, r⟩

/-- Defect: `b / a` with `a` NULL is NULL in SQL, but the generated code divides by the (zero) value variable of `a` and
traps; the whole query fails. -/
theorem C48_null_divisor :
    WellFormed (.ar .div colB colA) (.int .w4) ∧ Holds (toyLocals [0, 1, 0, 0] []) row2 (.ar .div colB colA) ∧
      sem row2 (.ar .div colB colA) = some .null ∧ go (toyLocals [0, 1, 0, 0] []) (.ar .div colB colA) = none := by
  refine ⟨⟨rfl, ⟨trivial, trivial, fun h => by cases h⟩, trivial, trivial⟩, ?_, rfl, by rfl⟩
  simp [Holds, colA, colB, row2, V.Has, Fits, IW.bits, Rep, Rep.RepI, Ty.d, toyLocals, nullBit, V.isNull, b2w]

/-- Defect: `SELECT c / b WHERE b <> 0` over the row `b = 0` results in nothing with a branching filter, but traps with a
predicated filter. -/
theorem C48_predicated_trap : ∃ f cs, cnfCode (P := toy) [[(.cmp .ne colB (.intC .w4 0), false)]] = some f ∧
    compileList [.ar .div colC colB] = some cs ∧ semCnf row2 [[(.cmp .ne colB (.intC .w4 0), false)]] = some .F ∧
    branching (toyLocals [0, 1, 0, 0] [0, 0, 0, 0, 20]) f cs = some none ∧
    predicated (toyLocals [0, 1, 0, 0] [0, 0, 0, 0, 20]) f cs = none := by
  refine ⟨_, _, rfl, rfl, rfl, ?_, ?_⟩ <;> rfl

/-- Defect: the sum of two `INT(1)` is not reduced to 8 bits: `100 + 100` is the `INT(1)` 200. -/
theorem C48_narrow_overflow :
    (X.ar .add (.attr 0 (.int .w1) false) (.attr 1 (.int .w1) false) : X toy).ty = some (.int .w1) ∧
    ¬ Fits IW.w1.bits 200 ∧
    go (toyLocals [100, 0, 100, 0] []) (.ar .add (.attr 0 (.int .w1) false) (.attr 1 (.int .w1) false)) =
      some ⟨.i8, some (200 : BitVec 32)⟩ := by
  refine ⟨rfl, by decide, by rfl⟩

/-- `AND` does not protect its right operand: `b <> 0 AND c / b > 1` traps for `b = 0`. -/
theorem C48_no_short_circuit :
    go (toyLocals [0, 1, 0, 0] [0, 0, 0, 0, 20])
      (.and (.cmp .ne colB (.intC .w4 0)) (.cmp .gt (.ar .div colC colB) (.intC .w4 1))) = none := by rfl

/-- Defect: `x % y` on floating-point numbers is accepted by the semantic analysis, but no code can be generated. -/
theorem C48_float_modulo : (X.ar .mod (.attr 0 .double false) (.attr 1 .double false) : X toy).ty = some .double ∧
    compile (X.ar .mod (.attr 0 .double false) (.attr 1 .double false) : X toy) = none := ⟨rfl, rfl⟩

end Mutable.WX
