import Verif.Derived.Model

/-!
# What conditions and aggregations over derived tables mean
-/

namespace BaikalDB.Derived.Spec
open BaikalDB.Expr (EV)
open BaikalDB.Pred (Row noRow nullV)

variable {κ : Type} [DecidableEq κ]

/-- The first row of each group of equivalent rows. -/
def firsts (same : Row → Row → Bool) : List Row → List Row
  | [] => []
  | x :: t => x :: (firsts same t).filter fun y => !same y x

/-- Rows that agree in a list of expressions. -/
def agree (key : EV → κ) (es : List Ex) (a b : Row) : Bool := decide (∀ e ∈ es, key (e.eval a) = key (e.eval b))

/-- The slots of the functions have the functions' values for the rows, the others are those of `first`. -/
def aggregateRow (funcs : List AggF) (first : Row) (rows : List Row) : Row := fun s =>
  match funcs.find? fun f => decide (f.out = s) with
  | some f => f.f (rows.map fun r => f.arg.eval r)
  | none => first s

/-- The result of an aggregation. -/
def aggregate (key : EV → κ) (g : AggE) (rows : List Row) : List Row :=
  if g.groups = [] ∧ rows = [] then [aggregateRow g.funcs (fun _ => nullV) []]
  else (firsts (agree key g.groups) rows).map fun x => aggregateRow g.funcs x (rows.filter fun y => agree key g.groups y x)

/-- The result of a window: each row gets the value for the rows of its partition and its number among them. -/
def window (key : EV → κ) (w : Win) : (before rows all : List Row) → List Row
  | _, [], _ => []
  | before, x :: t, all =>
    (fun s => if s = w.out then w.f (all.filter fun y => agree key w.parts y x) (before.filter fun y => agree key w.parts y x).length
      else x s) :: window key w (before ++ [x]) t all

def windows (key : EV → κ) : List Win → List Row → List Row
  | [], l => l
  | w :: ws, l => windows key ws (window key w [] l l)

def holds (truth : EV → Bool) (cs : List Ex) (r : Row) : Bool := decide (∀ c ∈ cs, truth (c.eval r) = true)

/-- The rows of the subquery before projection. -/
def subRows (key : EV → κ) (truth : EV → Bool) (q : Sub) : List Row :=
  let grouped := match q.agg with
    | none => q.base.filter (holds truth q.wher)
    | some g => aggregate key g (q.base.filter (holds truth q.wher))
  let all := windows key q.wins (grouped.filter (holds truth q.having))
  match q.limit with
  | none => all
  | some (off, n) => (List.range n).filterMap fun i => all[off + i]?

/-- The row of the derived table: each of its slots has the value of its projection. -/
def project (d : Derived) (r : Row) : Row := fun s =>
  if s / 2 ^ 16 = d.tuple then
    match d.mapping.lookup (s % 2 ^ 16) with
    | some i => match d.sub.projs[i]? with
      | some e => e.eval r
      | none => nullV
    | none => nullV
  else nullV

/-- The rows of the derived table. -/
def table (key : EV → κ) (truth : EV → Bool) (d : Derived) : List Row := (subRows key truth d.sub).map (project d)

/-- Which projections have aggregate or window functions is known. -/
def Marked (q : Sub) : Prop :=
  ∀ (i : Nat) (e : Ex), q.projs[i]? = some e → (q.special[i]?).getD false = false →
    (∀ g, q.agg = some g → ∀ f ∈ g.funcs, f.out ∉ e.slots) ∧ ∀ w ∈ q.wins, w.out ∉ e.slots

/-- A condition is more than a column. -/
def Composite (e : Ex) : Prop := ∃ f args, e = .fn f args

/-- What the slots of an aggregation over a derived table may be. -/
def Over (t : Nat) (g : AggE) : Prop :=
  (∀ e ∈ g.groups, ∀ s ∈ e.slots, s / 2 ^ 16 = t) ∧ (∀ f ∈ g.funcs, ∀ s ∈ f.arg.slots, s / 2 ^ 16 = t) ∧
    ∀ f ∈ g.funcs, f.out / 2 ^ 16 ≠ t

end BaikalDB.Derived.Spec
