/-! # Specification: rectangles in a Boolean grid -/

namespace Grid

/-- Every row of the grid has `m` cells. -/
def Rect (g : Array (Array Bool)) (m : Nat) : Prop := ∀ (i : Nat) (row : Array Bool), g[i]? = some row → row.size = m

/-- Is the cell in row `i`, column `j` true? -/
def on (g : Array (Array Bool)) (i j : Nat) : Bool := ((g[i]?.getD #[])[j]?).getD false

/-- All cells of `[u, d) × [l, r)` are true. -/
def AllTrue (g : Array (Array Bool)) (u d l r : Nat) : Prop := ∀ i j, u ≤ i → i < d → l ≤ j → j < r → on g i j = true

end Grid
