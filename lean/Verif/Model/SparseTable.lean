import Verif.Cxx

/-! # Model of `library/datastructure/sparse_table.hpp` -/

namespace SparseTable
open Cxx

/-- Members — sparse_table.hpp:24-27. -/
structure State (T : Type) where
  n : Nat
  log : Nat
  table : Array (Array T)
  flog : Array Nat

variable {T : Type} (op : T → T → T) (e d : T)

/-- `static int floor_log2(int i)` — sparse_table.hpp:43-45; `__builtin_clz(0)` is undefined. -/
def floorLog2 (i : Nat) : M Nat := if i = 0 then .error .ub else .ok (Nat.log2 i)

/-- The inner loop of `build_table`: `table[i + 1]` from `table[i]` — sparse_table.hpp:32-34. `d` is the value `resize` fills in. -/
def buildRow (n i : Nat) (row : Array T) : M (Array T) :=
  forUp 0 (n - 2 ^ (i + 1) + 1) (Array.replicate (n - 2 ^ (i + 1) + 1) d) fun l row' => do
    let x ← rd row l
    let y ← rd row (l + 2 ^ i)
    wr row' l (op x y)

/-- `void build_table(std::vector<T>&&)` — sparse_table.hpp:29-36. -/
def buildTable (a : Array T) (n log : Nat) : M (Array (Array T)) := do
  let table ← wr (Array.replicate (log + 1) #[]) 0 a
  forUp 0 log table fun i table => do
    let row ← rd table i
    let row' ← buildRow op d n i row
    wr table (i + 1) row'

/-- `std::fill(flog.begin() + lo, flog.begin() + hi, v)` — sparse_table.hpp:39, 41. -/
def fill (flog : Array Nat) (lo hi v : Nat) : M (Array Nat) := forUp lo hi flog fun i flog => wr flog i v

/-- `void build_flog_table()` — sparse_table.hpp:37-42. -/
def buildFlog (n log : Nat) : M (Array Nat) := do
  let flog ← forUp 0 log (Array.replicate (n + 1) 0) fun l flog => fill flog (2 ^ l) (2 ^ (l + 1)) l
  fill flog (2 ^ log) (n + 1) log

/-- `SparseTable(std::vector<T>&&)` — sparse_table.hpp:10-13. -/
def ofVector (a : Array T) : M (State T) := do
  let log ← floorLog2 a.size
  let table ← buildTable op d a a.size log
  let flog ← buildFlog a.size log
  return ⟨a.size, log, table, flog⟩

/-- `T operator()(int l, int r) const` (= `prod`) — sparse_table.hpp:15-22. -/
def prod (s : State T) (l r : Nat) : M T :=
  if l ≥ r then return e
  else do
    let i ← rd s.flog (r - l)
    let row ← rd s.table i
    let x ← rd row l
    let y ← rd row (r - 2 ^ i)
    return op x y

end SparseTable
