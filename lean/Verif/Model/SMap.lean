import Verif.Model.Mat

/-!
# Maps keyed by instance ID

Model of `std::map<size_t, V>` (and of `std::unordered_map<size_t, V>`, whose iteration order the code
never relies on): the list of its pairs in key order. `size_t` is ℕ.
-/

namespace Ikf

/-- Contents of a map in key order. -/
abbrev SMap (V : Type _) := List (ℕ × V)

namespace SMap
variable {V W : Type _}

/-- `find(k)`. -/
def find : SMap V → ℕ → Option V
  | [], _ => none
  | e :: r, k => if e.1 = k then some e.2 else find r k

/-- `m[k] = v`. -/
def set : SMap V → ℕ → V → SMap V
  | [], k, v => [(k, v)]
  | e :: r, k, v =>
    if k < e.1 then (k, v) :: e :: r
    else if k = e.1 then (k, v) :: r
    else e :: set r k v

/-- `m.insert({k, v})` / `m.emplace(k, v)`: no effect if the key exists. -/
def emplace (m : SMap V) (k : ℕ) (v : V) : SMap V :=
  match m.find k with
  | some _ => m
  | none => m.set k v

/-- `m.erase(k)`. -/
def erase (m : SMap V) (k : ℕ) : SMap V := m.filter (fun e => !(e.1 == k))

/-- The keys in iteration order. -/
def keys (m : SMap V) : List ℕ := m.map (·.1)

/-- A loop `for (auto &e : m) e.second = f(e.second)`. -/
def mapV (f : V → W) (m : SMap V) : SMap W := m.map (fun e => (e.1, f e.2))

/-- The same loop with a body that may fail. -/
def mapR (f : V → Res W) : SMap V → Res (SMap W)
  | [] => .ok []
  | e :: r => do
    let w ← f e.2
    let rs ← mapR f r
    .ok ((e.1, w) :: rs)

end SMap
end Ikf
