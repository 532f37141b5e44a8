import Verif.Constraints.Model

/-!
Specification: the rows of a plan, without schemas and constraints, and what the constraints promise about rows.
-/
namespace Mutable.Constraints

variable {I V : Type} [DecidableEq I] [DecidableEq V] [Truth V]

/-- The rows of the plan.  No schema is looked at. -/
def rowsOf : Plan I V → List (Row I V)
  | .scan _ rows => rows
  | .filter _ _ f c => (rowsOf c).filter f
  | .join _ L p l r => (rowsOf r).flatMap fun b =>
      ((rowsOf l).filter fun a => p.holds (both L a b) a b).map fun a => both L a b
  | .proj _ items c => (rowsOf c).map (project items)
  | .limit off lim c => ((rowsOf c).drop off).take lim
  | .group _ keys aggs c => (distinct ((rowsOf c).map (keyOf keys))).map fun k =>
      groupRow keys aggs k ((rowsOf c).filter fun r => decide (keyOf keys r = k))
  | .agg _ aggs c => [groupRow [] aggs [] (rowsOf c)]
  | .sort _ _ ord c => ord (rowsOf c)

/-- The result of the query. -/
def answer (p : Plan I V) : List (List (Option V)) := (rowsOf p).map fun r => (ids (schema p)).map r

/-- What a schema promises about rows: entries marked `NOT NULL` are not NULL in any row; for entries marked `UNIQUE`, no two
rows have the same value other than NULL. -/
def Sound (S : List (Ent I)) (rows : List (Row I V)) : Prop := ∀ e ∈ S,
  (e.nn = true → ∀ r ∈ rows, r e.id ≠ none) ∧
  (e.uq = true → rows.Pairwise fun r r' => ∀ v, ¬ (r e.id = some v ∧ r' e.id = some v))

/-- The promise of every operator's schema is kept. -/
def AllSound : Plan I V → Prop
  | .scan S rows => Sound S rows
  | .filter S q f c => Sound S (rowsOf (.filter S q f c)) ∧ AllSound c
  | .join S L p l r => Sound S (rowsOf (.join S L p l r)) ∧ AllSound l ∧ AllSound r
  | .proj S items c => Sound S (rowsOf (.proj S items c)) ∧ AllSound c
  | .limit off lim c => Sound (schema c) (rowsOf (.limit off lim c)) ∧ AllSound c
  | .group S keys aggs c => Sound S (rowsOf (.group S keys aggs c)) ∧ AllSound c
  | .agg S aggs c => Sound S (rowsOf (.agg S aggs c)) ∧ AllSound c
  | .sort S q ord c => Sound S (rowsOf (.sort S q ord c)) ∧ AllSound c

/-- The leaves of an expression refer to columns of the child, and a leaf that is taken for never NULL refers to a column
marked `NOT NULL`. -/
def E.Resolved (T : List (Ent I)) : E I V → Prop
  | .const _ => True
  | .attr i nn => ∃ t ∈ T, t.id = i ∧ (nn = true → t.nn = true)
  | .named i e => ∃ t ∈ T, t.id = i ∧ (e.canBeNull = false → t.nn = true)
  | .free i => ∃ t ∈ T, t.id = i
  | .un _ e => e.Resolved T
  | .bin _ a b => a.Resolved T ∧ b.Resolved T
  | .logic _ a b => a.Resolved T ∧ b.Resolved T
  | .isNull e => e.Resolved T
  | .cnt i => ∃ t ∈ T, t.id = i ∧ t.nn = true
  | .oth i arg => ∃ t ∈ T, t.id = i ∧ (arg.canBeNull = false → t.nn = true)

/-- The arguments of an aggregate. -/
def Ag.Resolved (T : List (Ent I)) : Ag I V → Prop
  | .cnt _ req => ∀ i ∈ req, i ∈ ids T
  | .oth _ arg => arg.Resolved T

/-- The columns a join predicate looks at are columns of the inputs; for equations, of the left and of the right one. -/
def JP.Sides (l r : List I) : JP I V → Prop
  | .theta req _ => ∀ i ∈ req, i ∈ l ∨ i ∈ r
  | .equi keys => ∀ k ∈ keys, k.1 ∈ l ∧ k.2 ∈ r

/-- The columns an expression looks at. -/
def E.Reads (T : List I) : E I V → Prop
  | .const _ => True
  | .attr i _ => i ∈ T
  | .named i _ => i ∈ T
  | .free i => i ∈ T
  | .un _ e => e.Reads T
  | .bin _ a b => a.Reads T ∧ b.Reads T
  | .logic _ a b => a.Reads T ∧ b.Reads T
  | .isNull e => e.Reads T
  | .cnt i => i ∈ T
  | .oth i _ => i ∈ T

def Ag.Reads (T : List I) : Ag I V → Prop
  | .cnt _ req => ∀ i ∈ req, i ∈ T
  | .oth _ arg => arg.Reads T

/-- What operators look at to compute the columns of their schemas are columns of the schemas of their inputs, and operators
that only select rows declare columns of their inputs. -/
def Closed : Plan I V → Prop
  | .scan _ _ => True
  | .filter S req _ c => Closed c ∧ (∀ i ∈ req, i ∈ ids (schema c)) ∧ ∀ i ∈ ids S, i ∈ ids (schema c)
  | .join S _ p l r => Closed l ∧ Closed r ∧ p.Sides (ids (schema l)) (ids (schema r)) ∧
      ∀ i ∈ ids S, i ∈ ids (schema l) ∨ i ∈ ids (schema r)
  | .proj S items c => Closed c ∧ ∀ x ∈ items, x.1 ∈ ids S → x.2.Reads (ids (schema c))
  | .limit _ _ c => Closed c
  | .group S keys aggs c => Closed c ∧ (∀ x ∈ keys, x.2.Reads (ids (schema c))) ∧
      ∀ x ∈ aggs, x.1 ∈ ids S → x.2.Reads (ids (schema c))
  | .agg S aggs c => Closed c ∧ ∀ x ∈ aggs, x.1 ∈ ids S → x.2.Reads (ids (schema c))
  | .sort S req _ c => Closed c ∧ (∀ i ∈ req, i ∈ ids (schema c)) ∧ ∀ i ∈ ids S, i ∈ ids (schema c)

/-- Plans as constructed: rows of tables satisfy the constraints of the table, schemas are those computed by the
constructors, identifiers are not repeated, expressions are resolved. -/
def WF : Plan I V → Prop
  | .scan S rows => (ids S).Nodup ∧ Sound S rows
  | .filter S req _ c => WF c ∧ S = schema c ∧ ∀ i ∈ req, i ∈ ids (schema c)
  | .join S L p l r => WF l ∧ WF r ∧ S = (schema l ++ schema r).map joinEnt ∧ L = ids (schema l) ∧ (ids S).Nodup ∧
      p.Sides (ids (schema l)) (ids (schema r))
  | .proj S items c => WF c ∧ (items.map Prod.fst).Nodup ∧ (∀ x ∈ items, x.2.Resolved (schema c)) ∧
      S = items.map (itemEnt (schema c))
  | .limit _ _ c => WF c
  | .group S keys aggs c => WF c ∧ (keys.map Prod.fst ++ aggs.map Prod.fst).Nodup ∧
      (∀ x ∈ keys, x.2.Resolved (schema c)) ∧ (∀ x ∈ aggs, x.2.Resolved (schema c)) ∧
      S = keys.map (keyEnt (schema c)) ++ aggs.map groupAggEnt
  | .agg S aggs c => WF c ∧ (aggs.map Prod.fst).Nodup ∧ (∀ x ∈ aggs, x.2.Resolved (schema c)) ∧ S = aggs.map aggEnt
  | .sort S req ord c => WF c ∧ S = schema c ∧ (∀ i ∈ req, i ∈ ids (schema c)) ∧ ∀ l, (ord l).Perm l

/-- The column an expression is: designators, and applications of aggregate functions, which were computed below. -/
def E.column? : E I V → Option I
  | .attr i _ => some i
  | .named i _ => some i
  | .free i => some i
  | .cnt i => some i
  | .oth i _ => some i
  | .const _ => none
  | .un _ _ => none
  | .bin _ _ _ => none
  | .logic _ _ _ => none
  | .isNull _ => none

/-- A name given to an item of a projection or to a grouping key is not the name of *another* column of the input. -/
def NoClash : Plan I V → Prop
  | .scan _ _ => True
  | .filter _ _ _ c => NoClash c
  | .join _ _ _ l r => NoClash l ∧ NoClash r
  | .proj _ items c => NoClash c ∧ ∀ x ∈ items, x.1 ∈ ids (schema c) → x.2.column? = some x.1
  | .limit _ _ c => NoClash c
  | .group _ keys _ c => NoClash c ∧ ∀ x ∈ keys, x.1 ∈ ids (schema c) → x.2.column? = some x.1
  | .agg _ _ c => NoClash c
  | .sort _ _ _ c => NoClash c

end Mutable.Constraints
