import Verif.Spec.Slices
/-
Lemmas on slices: numbers with mixed radices.
-/

namespace Pacman.Slices

theorem range_mul (m n : Nat) :
    List.range (m * n) = (List.range m).flatMap (fun q => (List.range n).map (fun j => q * n + j)) := by
  induction m with
  | zero => simp
  | succ m ih =>
    rw [Nat.succ_mul, List.range_add, ih, List.range_succ, List.flatMap_append]
    simp

/-! ### Slices -/

/-- The relative index, dimension by dimension. -/
def rel : List (Nat × Nat × Nat) → Nat → Int
  | [], _ => 0
  | (start, size, atoms) :: ds, x => ((x % atoms : Nat) - (start : Int)) + (size : Int) * rel ds (x / atoms)

theorem relLoop_eq (ds : List (Nat × Nat × Nat)) (rem cum : Nat) (acc : Int) :
    relLoop ds rem cum acc = acc + (cum : Int) * rel ds rem := by
  induction ds generalizing rem cum acc with
  | nil => simp [relLoop, rel]
  | cons d ds ih =>
    obtain ⟨s, n, a⟩ := d
    rw [relLoop, ih, rel, Int.mul_add, ← Int.mul_assoc, Int.natCast_mul, Int.mul_comm (cum : Int) (_ - _)]
    omega

/-- The raster index, dimension by dimension. -/
def ras : List (Nat × Nat × Nat) → Nat → Nat
  | [], _ => 0
  | (start, size, atoms) :: ds, i => (i % size + start) + atoms * ras ds (i / size)

theorem rasterLoop_eq (ds : List (Nat × Nat × Nat)) (rem cum acc : Nat) :
    rasterLoop ds rem cum acc = acc + cum * ras ds rem := by
  induction ds generalizing rem cum acc with
  | nil => simp [rasterLoop, ras]
  | cons d ds ih =>
    obtain ⟨s, n, a⟩ := d
    rw [rasterLoop, ih, ras, Nat.mul_add, ← Nat.mul_assoc, Nat.mul_comm cum (_ + _)]
    omega

/-- The slice lies within the vertex. -/
def Fits (ds : List (Nat × Nat × Nat)) : Prop := ∀ d ∈ ds, d.1 + d.2.1 ≤ d.2.2

/-- The number of atoms. -/
abbrev size (ds : List (Nat × Nat × Nat)) : Nat := prod (ds.map (fun d => d.2.1))

theorem mdIds_eq {ds : List (Nat × Nat × Nat)} (h : Fits ds) :
    mdIds ds = (List.range (size ds)).map (ras ds) := by
  induction ds with
  | nil => rfl
  | cons d ds ih =>
    obtain ⟨s, n, a⟩ := d
    have h0 : s + n ≤ a := h (s, n, a) List.mem_cons_self
    have hs : size ((s, n, a) :: ds) = size ds * n := by
      simp only [size, List.map_cons, prod]
      exact Nat.mul_comm _ _
    rw [mdIds, ih (fun d hd => h d (List.mem_cons_of_mem _ hd)), hs, range_mul, List.map_flatMap, List.flatMap_map]
    have hmin : min (s + n) a - s = n := by omega
    rw [hmin]
    congr 1
    funext q
    rw [List.map_map, List.range'_eq_map_range, List.map_map]
    apply List.map_congr_left
    intro j hj
    have hj : j < n := List.mem_range.1 hj
    simp only [Function.comp_apply, ras]
    have h1 : (q * n + j) % n = j := by
      rw [Nat.mul_comm, Nat.mul_add_mod, Nat.mod_eq_of_lt hj]
    have h2 : (q * n + j) / n = q := by
      rw [Nat.mul_comm, Nat.mul_add_div (by omega), Nat.div_eq_of_lt hj]
      rfl
    rw [h1, h2]
    omega

theorem rel_ras {ds : List (Nat × Nat × Nat)} (h : Fits ds) {i : Nat} (hi : i < size ds) :
    rel ds (ras ds i) = i := by
  induction ds generalizing i with
  | nil =>
    have hi : i < 1 := hi
    have : i = 0 := by omega
    subst this
    rfl
  | cons d ds ih =>
    obtain ⟨s, n, a⟩ := d
    have h0 : s + n ≤ a := h (s, n, a) List.mem_cons_self
    have hs : size ((s, n, a) :: ds) = n * size ds := rfl
    rw [hs] at hi
    have hn : 0 < n := by
      rcases Nat.eq_zero_or_pos n with h | h
      · subst h; simp at hi
      · exact h
    have hlt : i % n + s < a := by have := Nat.mod_lt i hn; omega
    have hd : i / n < size ds := Nat.div_lt_of_lt_mul hi
    rw [ras, rel]
    have h1 : (i % n + s + a * ras ds (i / n)) % a = i % n + s := by
      rw [Nat.add_mul_mod_self_left, Nat.mod_eq_of_lt hlt]
    have h2 : (i % n + s + a * ras ds (i / n)) / a = ras ds (i / n) := by
      rw [Nat.add_mul_div_left _ _ (by omega), Nat.div_eq_of_lt hlt, Nat.zero_add]
    rw [h1, h2, ih (fun d hd => h d (List.mem_cons_of_mem _ hd)) hd]
    have := Nat.mod_add_div i n
    have : ((i % n : Nat) : Int) + (n : Int) * ((i / n : Nat) : Int) = (i : Int) := by exact_mod_cast this
    omega

/-! ### Key order -/

/-- The core, dimension by dimension. -/
def kc : List (Nat × Nat) → Nat → Nat
  | [], _ => 0
  | (c, a) :: ds, x => x % a / c + a / c * kc ds (x / a)

/-- The atom on the core, dimension by dimension. -/
def ka : List (Nat × Nat) → Nat → Nat
  | [], _ => 0
  | (c, a) :: ds, x => x % a % c + c * ka ds (x / a)

/-- The atom from core and atom on the core, dimension by dimension. -/
def od : List (Nat × Nat) → Nat → Nat → Nat
  | [], _, _ => 0
  | (c, a) :: ds, i, j => i % (a / c) * c + j % c + a * od ds (i / (a / c)) (j / c)

theorem keyLoop_eq (ds : List (Nat × Nat)) (rem cp cc core atom : Nat) :
    keyLoop ds rem cp cc core atom = (core + cc * kc ds rem, atom + cp * ka ds rem) := by
  induction ds generalizing rem cp cc core atom with
  | nil => simp [keyLoop, kc, ka]
  | cons d ds ih =>
    obtain ⟨c, a⟩ := d
    rw [keyLoop, ih, kc, ka, Nat.mul_add, Nat.mul_add, ← Nat.mul_assoc, ← Nat.mul_assoc,
      Nat.mul_comm cc (rem % a / c), Nat.mul_comm cp (rem % a % c)]
    have : rem % a - c * (rem % a / c) = rem % a % c := by
      have := Nat.mod_add_div (rem % a) c
      omega
    rw [this]
    simp only [Prod.mk.injEq]
    omega

theorem orderLoop_eq (ds : List (Nat × Nat)) (i j cum acc : Nat) :
    orderLoop ds i j cum acc = acc + cum * od ds i j := by
  induction ds generalizing i j cum acc with
  | nil => simp [orderLoop, od]
  | cons d ds ih =>
    obtain ⟨c, a⟩ := d
    rw [orderLoop, ih, od, Nat.mul_add, ← Nat.mul_assoc, Nat.mul_comm cum (_ + _)]
    omega

/-- The atoms per core divide the atoms, which are not none. -/
def Divides (ds : List (Nat × Nat)) : Prop := ∀ d ∈ ds, 0 < d.1 ∧ d.1 ∣ d.2 ∧ 0 < d.2

abbrev nCores (ds : List (Nat × Nat)) : Nat := prod (ds.map (fun d => d.2 / d.1))
abbrev nPer (ds : List (Nat × Nat)) : Nat := prod (ds.map (fun d => d.1))
abbrev nAll (ds : List (Nat × Nat)) : Nat := prod (ds.map (fun d => d.2))

theorem nCores_mul {ds : List (Nat × Nat)} (h : Divides ds) : nCores ds * nPer ds = nAll ds := by
  induction ds with
  | nil => rfl
  | cons d ds ih =>
    obtain ⟨c, a⟩ := d
    obtain ⟨_, h2, _⟩ := h (c, a) List.mem_cons_self
    have := ih (fun d hd => h d (List.mem_cons_of_mem _ hd))
    simp only [nCores, nPer, nAll, List.map_cons, prod] at *
    rw [← this]
    have hac : a / c * c = a := Nat.div_mul_cancel h2
    calc a / c * prod (ds.map (fun d => d.2 / d.1)) * (c * prod (ds.map (fun d => d.1)))
        = (a / c * c) * (prod (ds.map (fun d => d.2 / d.1)) * prod (ds.map (fun d => d.1))) := by ac_rfl
      _ = _ := by rw [hac]

theorem prod_pos {l : List Nat} (h : ∀ a ∈ l, 0 < a) : 0 < prod l := by
  induction l with
  | nil => exact Nat.one_pos
  | cons a l ih =>
    exact Nat.mul_pos (h a List.mem_cons_self) (ih (fun a ha => h a (List.mem_cons_of_mem _ ha)))

theorem kc_lt {ds : List (Nat × Nat)} (h : Divides ds) {x : Nat} (hx : x < nAll ds) : kc ds x < nCores ds := by
  induction ds generalizing x with
  | nil => exact Nat.one_pos
  | cons d ds ih =>
    obtain ⟨c, a⟩ := d
    obtain ⟨h1, h2, h3⟩ := h (c, a) List.mem_cons_self
    have hx : x < a * nAll ds := hx
    have hr := ih (fun d hd => h d (List.mem_cons_of_mem _ hd)) (Nat.div_lt_of_lt_mul hx)
    have hd : x % a / c < a / c := by
      rw [Nat.div_lt_iff_lt_mul h1, Nat.div_mul_cancel h2]
      exact Nat.mod_lt _ h3
    rw [kc]
    change _ < a / c * nCores ds
    calc x % a / c + a / c * kc ds (x / a) < a / c + a / c * kc ds (x / a) := by omega
      _ = a / c * (kc ds (x / a) + 1) := by rw [Nat.mul_add, Nat.mul_one, Nat.add_comm]
      _ ≤ a / c * nCores ds := Nat.mul_le_mul_left _ hr

theorem ka_lt {ds : List (Nat × Nat)} (h : Divides ds) (x : Nat) : ka ds x < nPer ds := by
  induction ds generalizing x with
  | nil => exact Nat.one_pos
  | cons d ds ih =>
    obtain ⟨c, a⟩ := d
    obtain ⟨h1, h2, h3⟩ := h (c, a) List.mem_cons_self
    have hr := ih (fun d hd => h d (List.mem_cons_of_mem _ hd)) (x / a)
    have hd : x % a % c < c := Nat.mod_lt _ h1
    rw [ka]
    change _ < c * nPer ds
    calc x % a % c + c * ka ds (x / a) < c + c * ka ds (x / a) := by omega
      _ = c * (ka ds (x / a) + 1) := by rw [Nat.mul_add, Nat.mul_one, Nat.add_comm]
      _ ≤ c * nPer ds := Nat.mul_le_mul_left _ hr

theorem od_lt {ds : List (Nat × Nat)} (h : Divides ds) (i j : Nat) : od ds i j < nAll ds := by
  induction ds generalizing i j with
  | nil => exact Nat.one_pos
  | cons d ds ih =>
    obtain ⟨c, a⟩ := d
    obtain ⟨h1, h2, h3⟩ := h (c, a) List.mem_cons_self
    have hr := ih (fun d hd => h d (List.mem_cons_of_mem _ hd)) (i / (a / c)) (j / c)
    have hq : 0 < a / c := Nat.div_pos (Nat.le_of_dvd h3 h2) h1
    have hi : i % (a / c) + 1 ≤ a / c := Nat.mod_lt _ hq
    have hj : j % c < c := Nat.mod_lt _ h1
    have hd : i % (a / c) * c + j % c < a := by
      have := Nat.mul_le_mul_right c hi
      rw [Nat.div_mul_cancel h2, Nat.add_mul, Nat.one_mul] at this
      omega
    rw [od]
    change _ < a * nAll ds
    calc i % (a / c) * c + j % c + a * od ds (i / (a / c)) (j / c)
        < a + a * od ds (i / (a / c)) (j / c) := by omega
      _ = a * (od ds (i / (a / c)) (j / c) + 1) := by rw [Nat.mul_add, Nat.mul_one, Nat.add_comm]
      _ ≤ a * nAll ds := Nat.mul_le_mul_left _ hr

theorem od_key {ds : List (Nat × Nat)} (h : Divides ds) {x : Nat} (hx : x < nAll ds) :
    od ds (kc ds x) (ka ds x) = x := by
  induction ds generalizing x with
  | nil =>
    have hx : x < 1 := hx
    simp [od]
    omega
  | cons d ds ih =>
    obtain ⟨c, a⟩ := d
    obtain ⟨h1, h2, h3⟩ := h (c, a) List.mem_cons_self
    have hx : x < a * nAll ds := hx
    have hr := ih (fun d hd => h d (List.mem_cons_of_mem _ hd)) (Nat.div_lt_of_lt_mul hx)
    have hq : 0 < a / c := Nat.div_pos (Nat.le_of_dvd h3 h2) h1
    have hd : x % a / c < a / c := by
      rw [Nat.div_lt_iff_lt_mul h1, Nat.div_mul_cancel h2]
      exact Nat.mod_lt _ h3
    have hj : x % a % c < c := Nat.mod_lt _ h1
    rw [od, kc, ka, Nat.add_mul_mod_self_left, Nat.mod_eq_of_lt hd, Nat.add_mul_mod_self_left,
      Nat.mod_eq_of_lt hj, Nat.add_mul_div_left _ _ hq, Nat.div_eq_of_lt hd, Nat.zero_add,
      Nat.add_mul_div_left _ _ h1, Nat.div_eq_of_lt hj, Nat.zero_add, hr]
    have e1 := Nat.mod_add_div (x % a) c
    have e2 := Nat.mod_add_div x a
    rw [Nat.mul_comm] at e1
    omega

theorem key_od {ds : List (Nat × Nat)} (h : Divides ds) {i j : Nat} (hi : i < nCores ds) (hj : j < nPer ds) :
    kc ds (od ds i j) = i ∧ ka ds (od ds i j) = j := by
  induction ds generalizing i j with
  | nil =>
    have hi : i < 1 := hi
    have hj : j < 1 := hj
    simp [kc, ka]
    omega
  | cons d ds ih =>
    obtain ⟨c, a⟩ := d
    obtain ⟨h1, h2, h3⟩ := h (c, a) List.mem_cons_self
    have hi : i < a / c * nCores ds := hi
    have hj : j < c * nPer ds := hj
    have hr := ih (fun d hd => h d (List.mem_cons_of_mem _ hd)) (Nat.div_lt_of_lt_mul hi)
      (Nat.div_lt_of_lt_mul hj)
    have hq : 0 < a / c := Nat.div_pos (Nat.le_of_dvd h3 h2) h1
    have hi' : i % (a / c) + 1 ≤ a / c := Nat.mod_lt _ hq
    have hj' : j % c < c := Nat.mod_lt _ h1
    have hd : i % (a / c) * c + j % c < a := by
      have := Nat.mul_le_mul_right c hi'
      rw [Nat.div_mul_cancel h2, Nat.add_mul, Nat.one_mul] at this
      omega
    have em : od ((c, a) :: ds) i j % a = i % (a / c) * c + j % c := by
      rw [od, Nat.add_mul_mod_self_left, Nat.mod_eq_of_lt hd]
    have ed : od ((c, a) :: ds) i j / a = od ds (i / (a / c)) (j / c) := by
      rw [od, Nat.add_mul_div_left _ _ h3, Nat.div_eq_of_lt hd, Nat.zero_add]
    have e1 : (i % (a / c) * c + j % c) / c = i % (a / c) := by
      rw [Nat.mul_comm, Nat.mul_add_div h1, Nat.div_eq_of_lt hj', Nat.add_zero]
    have e2 : (i % (a / c) * c + j % c) % c = j % c := by
      rw [Nat.mul_comm, Nat.mul_add_mod, Nat.mod_eq_of_lt hj']
    rw [kc, ka, em, ed, e1, e2, hr.1, hr.2]
    exact ⟨Nat.mod_add_div _ _, Nat.mod_add_div _ _⟩

/-! ### The slices of a vertex -/

/-- The dimensions of a slice, dimension by dimension. -/
def pl : List (Nat × Nat) → Nat → List (Nat × Nat × Nat)
  | [], _ => []
  | (c, a) :: ds, v => (v % (a / c) * c, c, a) :: pl ds (v / (a / c))

theorem ceilDiv_dvd {a c : Nat} (hc : 0 < c) (h : c ∣ a) : ceilDiv a c = a / c := by
  obtain ⟨k, rfl⟩ := h
  unfold ceilDiv
  rw [Nat.mul_div_cancel_left _ hc]
  have : c * k + c - 1 = c * k + (c - 1) := by omega
  rw [this, Nat.mul_add_div hc, Nat.div_eq_of_lt (by omega), Nat.add_zero]

theorem numerators_snd {ds : List (Nat × Nat)} (h : Divides ds) (nv : Nat) :
    (numerators ds nv).2 = nv * nCores ds := by
  induction ds generalizing nv with
  | nil => simp [numerators, nCores, prod]
  | cons d ds ih =>
    obtain ⟨c, a⟩ := d
    obtain ⟨h1, h2, h3⟩ := h (c, a) List.mem_cons_self
    simp only [numerators]
    rw [ih (fun d hd => h d (List.mem_cons_of_mem _ hd)), ceilDiv_dvd h1 h2, Nat.mul_assoc]
    rfl

theorem place_numerators {ds : List (Nat × Nat)} (h : Divides ds) {q v : Nat} (hq : 0 < q)
    (hv : v < q * nCores ds) (b : List (Nat × Nat × Nat)) (acc : List (Nat × Nat × Nat)) :
    place ((numerators ds q).1.reverse ++ b) v acc = place b (v % q) (pl ds (v / q) ++ acc) := by
  induction ds generalizing q v b acc with
  | nil =>
    simp only [nCores, List.map_nil, prod, Nat.mul_one] at hv
    simp [numerators, pl, Nat.mod_eq_of_lt hv]
  | cons d ds ih =>
    obtain ⟨c, a⟩ := d
    obtain ⟨h1, h2, h3⟩ := h (c, a) List.mem_cons_self
    have hp : 0 < a / c := Nat.div_pos (Nat.le_of_dvd h3 h2) h1
    simp only [numerators]
    rw [List.reverse_cons, List.append_assoc, ceilDiv_dvd h1 h2]
    rw [ih (fun d hd => h d (List.mem_cons_of_mem _ hd)) (Nat.mul_pos hq hp)
      (by rw [Nat.mul_assoc]; exact hv)]
    rw [List.singleton_append, place, pl, Nat.mod_mul_right_mod, Nat.mod_mul_right_div_self,
      Nat.div_div_eq_div_mul, List.cons_append]
    have hi : v / q % (a / c) + 1 ≤ a / c := Nat.mod_lt _ hp
    have := Nat.mul_le_mul_right c hi
    rw [Nat.div_mul_cancel h2, Nat.add_mul, Nat.one_mul] at this
    have hmin : min (v / q % (a / c) * c + c) a - v / q % (a / c) * c = c := by omega
    rw [hmin]

theorem place_eq {ds : List (Nat × Nat)} (h : Divides ds) {v : Nat} (hv : v < nCores ds) :
    place (numerators ds 1).1.reverse v [] = pl ds v := by
  have := place_numerators h Nat.one_pos (by rw [Nat.one_mul]; exact hv) [] []
  rw [List.append_nil] at this
  rw [this, place, Nat.div_one, List.append_nil]

theorem size_pl (ds : List (Nat × Nat)) (v : Nat) : size (pl ds v) = nPer ds := by
  induction ds generalizing v with
  | nil => rfl
  | cons d ds ih =>
    obtain ⟨c, a⟩ := d
    simp only [pl, size, nPer, List.map_cons, prod]
    rw [show prod ((pl ds (v / (a / c))).map (fun d => d.2.1)) = _ from ih _]

theorem fits_pl {ds : List (Nat × Nat)} (h : Divides ds) (v : Nat) : Fits (pl ds v) := by
  induction ds generalizing v with
  | nil => intro d hd; simp [pl] at hd
  | cons d ds ih =>
    obtain ⟨c, a⟩ := d
    obtain ⟨h1, h2, h3⟩ := h (c, a) List.mem_cons_self
    have hp : 0 < a / c := Nat.div_pos (Nat.le_of_dvd h3 h2) h1
    intro d hd
    rw [pl] at hd
    rcases List.mem_cons.1 hd with rfl | hd
    · have hi : v % (a / c) + 1 ≤ a / c := Nat.mod_lt _ hp
      have := Nat.mul_le_mul_right c hi
      rw [Nat.div_mul_cancel h2, Nat.add_mul, Nat.one_mul] at this
      exact this
    · exact ih (fun d hd => h d (List.mem_cons_of_mem _ hd)) _ d hd

theorem ras_pl (ds : List (Nat × Nat)) (v i : Nat) : ras (pl ds v) i = od ds v i := by
  induction ds generalizing v i with
  | nil => rfl
  | cons d ds ih =>
    obtain ⟨c, a⟩ := d
    rw [pl, ras, od, ih, Nat.add_comm (i % c)]

theorem multiLoop_eq {ds : List (Nat × Nat)} (h : Divides ds) (k v : Nat) (hv : v + k ≤ nCores ds) :
    multiLoop (numerators ds 1).1 (List.range' v k) (v * nPer ds) =
      .ok ((List.range' v k).map (fun v => ⟨v * nPer ds, nPer ds, some (pl ds v)⟩)) := by
  induction k generalizing v with
  | zero => rfl
  | succ k ih =>
    rw [List.range'_succ, multiLoop]
    rw [place_eq h (by omega)]
    have hs : prod ((pl ds v).map (fun d => d.2.1)) = nPer ds := size_pl ds v
    have hpos : 0 < nPer ds := prod_pos (by
      intro c hc
      obtain ⟨d, hd, rfl⟩ := List.mem_map.1 hc
      exact (h d hd).1)
    rw [hs]
    unfold mkSlice
    rw [if_neg (by omega)]
    have e : v * nPer ds + nPer ds = (v + 1) * nPer ds := by rw [Nat.add_mul, Nat.one_mul]
    rw [e]
    simp only
    rw [ih (v + 1) (by omega)]
    simp only [List.map_cons]
    congr 3
    rw [Nat.add_mul, Nat.one_mul]
    omega

end Pacman.Slices
