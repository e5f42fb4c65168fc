import Verif.Model.Pir
import Verif.Proofs.BfvParams
import Verif.Proofs.RnsScaler
import Verif.Props.Utils
/-
Properties C42 (client encoding), C45 (number of query ciphertexts) and C53 (number of dimensions).
-/
namespace OnionPIR
open Spec

/-! ### C42 -/

/-- `v` holds at positions `off, …, off + n - 1` the unit vector with its one at `i`. -/
def Spec.OneHotAt (v : List Nat) (off n i : Nat) : Prop := ∀ j, j < n → v[off + j]? = some (if j = i then 1 else 0)

namespace Client

theorem selector_ok {dim q : Nat} (h : q < dim) : selector dim q = .ok ((List.range dim).map fun j => if j = q then 1 else 0) := by
  unfold selector; rw [rassert_ok h]; rfl

theorem selectors_ok {dim : Nat} {qs : List Nat} (h : ∀ q ∈ qs, q < dim) :
    mapR (selector dim) qs = .ok (qs.map fun q => (List.range dim).map fun j => if j = q then 1 else 0) :=
  mapR_ok fun q hq => selector_ok (h q hq)

theorem selectors_fail {dim : Nat} {qs : List Nat} (h : ¬ ∀ q ∈ qs, q < dim) : mapR (selector dim) qs = .error .assert := by
  induction qs with
  | nil => exact absurd (by simp) h
  | cons q qs ih =>
    rw [mapR]
    by_cases hq : q < dim
    · rw [selector_ok hq, res_ok_bind, ih (by intro hh; exact h (by simpa [hq] using hh))]; rfl
    · unfold selector; rw [rassert_fail hq]; rfl

theorem flatten_get {dim : Nat} {f : Nat → Nat → Nat} (qs : List Nat) {k j : Nat} (hk : k < qs.length) (hj : j < dim) :
    ((qs.map fun q => (List.range dim).map (f q)).flatten)[k * dim + j]? = some (f (qs.getD k 0) j) := by
  induction qs generalizing k with
  | nil => simp at hk
  | cons q qs ih =>
    rw [List.map_cons, List.flatten_cons]
    cases k with
    | zero => rw [List.getElem?_append_left (by simp; omega)]; simp [hj]
    | succ k =>
      rw [List.getElem?_append_right (by simp [Nat.add_mul]; omega), List.length_map, List.length_range,
        show (k + 1) * dim + j - dim = k * dim + j by rw [Nat.add_mul]; omega, ih (by simpa using hk)]
      simp

theorem flatten_length {dim : Nat} {f : Nat → Nat → Nat} (qs : List Nat) :
    ((qs.map fun q => (List.range dim).map (f q)).flatten).length = dim * qs.length := by
  induction qs with
  | nil => simp
  | cons q qs ih => rw [List.map_cons, List.flatten_cons, List.length_append, ih]; simp [Nat.mul_add]; omega

end Client

/-- C42 for well-shaped queries: the result has length `first_dim + dim * (d - 1)` and consists of one unit vector per dimension, its
one at the requested coordinate. -/
theorem c42_encode (pr : Profile) (c : Client) {i0 : Nat} {rest : List Nat} (h0 : i0 < c.firstDim) (hr : ∀ i ∈ rest, i < c.dim)
    (hp : c.dim ^ rest.length < 2 ^ 64) (hl : rest.length < 2 ^ 32) {dbRows : Nat} (hdb : dbRows = c.firstDim * c.dim ^ rest.length) :
    ∃ v, c.encode pr (i0 :: rest) dbRows = .ok v ∧ v.length = c.firstDim + c.dim * rest.length ∧ OneHotAt v 0 c.firstDim i0 ∧
      ∀ k, k < rest.length → OneHotAt v (c.firstDim + k * c.dim) c.dim (rest.getD k 0) := by
  have hd : 0 < c.dim ^ rest.length := by
    rcases Nat.eq_zero_or_pos rest.length with hz | hz
    · rw [hz]; norm_num
    · exact Nat.pow_pos (Nat.lt_of_le_of_lt (Nat.zero_le _) (hr rest[0] (List.getElem_mem hz)))
  refine ⟨((List.range c.firstDim).map fun i => if i = i0 then 1 else 0) ++ (rest.map fun q => (List.range c.dim).map fun j => if j = q then 1 else 0).flatten, ?_, ?_, ?_, ?_⟩
  · unfold Client.encode
    rw [idx_ok (by simp), res_ok_bind]
    simp only [List.getElem_cons_zero, List.length_cons, Nat.add_sub_cancel, List.drop_succ_cons, List.drop_zero]
    rw [rassert_ok h0, res_ok_bind, divR_ok (by omega), res_ok_bind, powW, Nat.mod_eq_of_lt hl, fit_ok hp, res_ok_bind, divR_ok hd.ne', res_ok_bind,
      hdb, Nat.mul_div_cancel_left _ (by omega), Nat.div_self hd, rassert_ok rfl, res_ok_bind, Client.selectors_ok hr]
    rfl
  · rw [List.length_append, Client.flatten_length (f := fun q j => if j = q then 1 else 0)]; simp
  · intro j hj
    rw [Nat.zero_add, List.getElem?_append_left (by simpa using hj)]; simp [hj]
  · intro k hk j hj
    rw [List.getElem?_append_right (by simp; omega), List.length_map, List.length_range, show c.firstDim + k * c.dim + j - c.firstDim = k * c.dim + j by omega,
      Client.flatten_get (f := fun q j => if j = q then 1 else 0) rest hk hj]

/-- C42: the exact condition under which `encode` does not panic. The size test accepts every number of rows from
`first_dim * dim^(d-1)` up to, but not including, twice that number. -/
theorem c42_accepts_partial (pr : Profile) (c : Client) {i0 : Nat} {rest : List Nat} (hp : c.dim ^ rest.length < 2 ^ 64) (hl : rest.length < 2 ^ 32) (dbRows : Nat) :
    (∃ v, c.encode pr (i0 :: rest) dbRows = .ok v) ↔
      i0 < c.firstDim ∧ (∀ i ∈ rest, i < c.dim) ∧ c.firstDim * c.dim ^ rest.length ≤ dbRows ∧ dbRows < 2 * (c.firstDim * c.dim ^ rest.length) := by
  unfold Client.encode
  rw [idx_ok (by simp), res_ok_bind]
  simp only [List.getElem_cons_zero, List.length_cons, Nat.add_sub_cancel, List.drop_succ_cons, List.drop_zero, powW]
  rw [Nat.mod_eq_of_lt hl, fit_ok hp]
  by_cases h0 : i0 < c.firstDim
  · rw [rassert_ok h0, res_ok_bind, divR_ok (by omega), res_ok_bind, res_ok_bind]
    by_cases hd : c.dim ^ rest.length = 0
    · simp [divR, hd, bind, Except.bind]
    · rw [divR_ok hd, res_ok_bind]
      have hdiv : dbRows / c.firstDim / c.dim ^ rest.length = 1 ↔
          c.firstDim * c.dim ^ rest.length ≤ dbRows ∧ dbRows < 2 * (c.firstDim * c.dim ^ rest.length) := by
        have hpos : 0 < c.firstDim * c.dim ^ rest.length := Nat.mul_pos (by omega) (Nat.pos_of_ne_zero hd)
        rw [Nat.div_div_eq_div_mul, Nat.div_eq_iff hpos]
        generalize c.firstDim * c.dim ^ rest.length = x at *
        omega
      by_cases h1 : dbRows / c.firstDim / c.dim ^ rest.length = 1
      · rw [rassert_ok h1, res_ok_bind]
        by_cases hr : ∀ i ∈ rest, i < c.dim
        · rw [Client.selectors_ok hr]
          exact ⟨fun _ => ⟨h0, hr, hdiv.mp h1⟩, fun _ => ⟨_, rfl⟩⟩
        · rw [Client.selectors_fail hr]
          constructor
          · rintro ⟨v, hv⟩; simp [bind, Except.bind] at hv
          · rintro ⟨-, h, -⟩; exact absurd h hr
      · rw [rassert_fail h1]
        constructor
        · rintro ⟨v, hv⟩; simp [bind, Except.bind] at hv
        · rintro ⟨-, -, h⟩; exact absurd (hdiv.mpr h) h1
  · rw [rassert_fail h0]
    constructor
    · rintro ⟨v, hv⟩; simp [bind, Except.bind] at hv
    · rintro ⟨h, -⟩; exact absurd h h0

/-- C42: no coordinates at all panics. -/
theorem c42_empty (pr : Profile) (c : Client) (dbRows : Nat) : c.encode pr [] dbRows = .error .bounds := rfl

/-- C42 fails for the size test: 17 rows are accepted for three dimensions of sizes 4, 2 and 2. -/
theorem c42_size_wrong (pr : Profile) : ∃ v, (Client.mk 4 2).encode pr [0, 0, 0] 17 = .ok v ∧ 17 ≠ 4 * 2 ^ 2 := by
  cases pr <;> exact ⟨_, rfl, by norm_num⟩

example : Client.default.encode .debug [1, 3, 0] 64 = .ok [0, 1, 0, 0, 0, 0, 0, 1, 1, 0, 0, 0] := by decide

/-! ### C45 -/

namespace Server

theorem noOfCtsLoop_ok (pr : Profile) {dim : Nat} (hd : 2 ≤ dim) : ∀ (b fuel len count : Nat), b ≤ fuel → len < 2 ^ (b + 1) →
    count + dim * b < 2 ^ 64 →
    ∃ k, k ≤ b ∧ noOfCtsLoop pr dim fuel len count = .ok (count + dim * k) ∧ len / dim ^ k ≤ 1 ∧ ∀ j, j < k → 1 < len / dim ^ j
  | 0, fuel, len, count, _, h, _ => ⟨0, le_rfl, by cases fuel <;> unfold noOfCtsLoop <;> rw [if_neg (by omega)] <;> simp, by simp; omega, by simp⟩
  | b + 1, 0, len, count, h, _, _ => by omega
  | b + 1, fuel + 1, len, count, hb, h, hc => by
    unfold noOfCtsLoop
    by_cases h1 : len > 1
    · have hlt : len / dim < 2 ^ (b + 1) := by
        have h2 : 2 ^ (b + 1 + 1) = 2 ^ (b + 1) * 2 := pow_succ _ _
        have : len / dim ≤ len / 2 := Nat.div_le_div_left hd (by omega)
        omega
      have hmul : dim * (b + 1) = dim * b + dim := by ring
      obtain ⟨k, k0, k1, k2, k3⟩ := noOfCtsLoop_ok pr hd b fuel (len / dim) (count + dim) (by omega) hlt (by omega)
      refine ⟨k + 1, by omega, ?_, ?_, ?_⟩
      · have : dim ≤ dim * (b + 1) := Nat.le_mul_of_pos_right _ (by omega)
        rw [if_pos h1, divR_ok (by omega), res_ok_bind, addW_ok (by omega), res_ok_bind, k1]
        congr 1; ring
      · rwa [pow_succ', ← Nat.div_div_eq_div_mul]
      · intro j hj
        cases j with
        | zero => simpa using h1
        | succ j => rw [pow_succ', ← Nat.div_div_eq_div_mul]; exact k3 j (by omega)
    · exact ⟨0, Nat.zero_le _, by rw [if_neg h1]; simp, by simp; omega, by simp⟩

/-- With `dim = 1` the loop never ends with a value. -/
theorem noOfCtsLoop_one (pr : Profile) : ∀ (fuel len count v : Nat), 1 < len → noOfCtsLoop pr 1 fuel len count ≠ .ok v
  | 0, len, count, v, h => by unfold noOfCtsLoop; rw [if_pos h]; simp
  | fuel + 1, len, count, v, h => by
    unfold noOfCtsLoop
    rw [if_pos h, divR_ok (by omega), res_ok_bind, Nat.div_one]
    intro hh
    rw [bind_eq_ok] at hh
    obtain ⟨c, -, hh⟩ := hh
    exact noOfCtsLoop_one pr fuel len c v h hh

end Server

/-- C45: for `dim ≥ 2` the loop ends after at most 62 iterations, and the result is `first_dim + dim * k` for the smallest `k` such that `k`
further dimensions of size `dim` reduce the number of chunks to at most one. Vector lengths are below `2^63`. -/
theorem c45_no_of_cts (pr : Profile) (s : Server) (hf : 0 < s.firstDim) (hd : 2 ≤ s.dim) (hlen : s.db.length < 2 ^ 63)
    (hfd : s.firstDim + s.dim * 62 < 2 ^ 64) {fuel : Nat} (hfuel : 62 ≤ fuel) :
    ∃ k, s.noOfCts pr fuel = .ok (s.firstDim + s.dim * k) ∧ s.db.length / s.firstDim / s.dim ^ k ≤ 1 ∧
      ∀ j, j < k → 1 < s.db.length / s.firstDim / s.dim ^ j := by
  obtain ⟨k, -, h1, h2, h3⟩ := Server.noOfCtsLoop_ok pr hd 62 fuel (s.db.length / s.firstDim) s.firstDim hfuel
    (lt_of_le_of_lt (Nat.div_le_self _ _) hlen) hfd
  refine ⟨k, ?_, h2, h3⟩
  unfold Server.noOfCts
  rw [addW_ok (by omega), res_ok_bind, divR_ok (by omega), res_ok_bind, Nat.zero_add, h1]

/-- C45 for databases of the shape the code is used with: `first_dim * dim^k` rows give `first_dim + dim * k`. -/
theorem c45_partial (pr : Profile) (s : Server) (hf : 0 < s.firstDim) (hd : 2 ≤ s.dim) {k : Nat} (hdb : s.db.length = s.firstDim * s.dim ^ k)
    (hlen : s.db.length < 2 ^ 63) (hfd : s.firstDim + s.dim * 62 < 2 ^ 64) {fuel : Nat} (hfuel : 62 ≤ fuel) :
    s.noOfCts pr fuel = .ok (s.firstDim + s.dim * k) := by
  obtain ⟨k', h1, h2, h3⟩ := c45_no_of_cts pr s hf hd hlen hfd hfuel
  rw [hdb, Nat.mul_div_cancel_left _ hf] at h2 h3
  have : k' = k := by
    rcases lt_trichotomy k' k with h | h | h
    · rw [Nat.pow_div h.le (by omega)] at h2
      have : 2 ≤ s.dim ^ (k - k') := le_trans hd (Nat.le_self_pow (by omega) _)
      omega
    · exact h
    · have := h3 k h
      rw [Nat.div_self (Nat.pow_pos (by omega))] at this
      omega
  rw [h1, this]

/-- C45 fails for `dim = 1` with more than one chunk: no number of iterations produces a result. -/
theorem c45_diverges (pr : Profile) (s : Server) (hd : s.dim = 1) (h : 1 < s.db.length / s.firstDim) (fuel v : Nat) :
    s.noOfCts pr fuel ≠ .ok v := by
  unfold Server.noOfCts
  intro hh
  rw [bind_eq_ok] at hh
  obtain ⟨c, -, hh⟩ := hh
  rw [bind_eq_ok] at hh
  obtain ⟨len, hl, hh⟩ := hh
  have hf : s.firstDim ≠ 0 := by intro h0; rw [h0] at h; simp at h
  rw [divR_ok hf] at hl
  rw [hd] at hh
  exact Server.noOfCtsLoop_one pr fuel len c v (by rw [← Except.ok.inj hl]; exact h) hh

/-- C45: in the release build the loop for `dim = 1` runs forever. -/
theorem c45_diverges_release (s : Server) (hd : s.dim = 1) (h : 1 < s.db.length / s.firstDim) (fuel : Nat) :
    s.noOfCts .release fuel = .error .diverge := by
  have loop : ∀ (fuel len count : Nat), 1 < len → Server.noOfCtsLoop .release 1 fuel len count = .error .diverge := by
    intro fuel
    induction fuel with
    | zero => intro len count h; unfold Server.noOfCtsLoop; rw [if_pos h]
    | succ fuel ih =>
      intro len count h
      unfold Server.noOfCtsLoop
      rw [if_pos h, divR_ok (by omega), res_ok_bind, Nat.div_one]
      obtain ⟨c, hc⟩ : ∃ c, addW 64 .release count 1 = .ok c := by
        unfold addW fit; split_ifs <;> exact ⟨_, rfl⟩
      rw [hc, res_ok_bind]
      exact ih len c h
  have hf : s.firstDim ≠ 0 := by intro h0; rw [h0] at h; simp at h
  unfold Server.noOfCts
  obtain ⟨c, hc⟩ : ∃ c, addW 64 .release 0 s.firstDim = .ok c := by
    unfold addW fit; split_ifs <;> exact ⟨_, rfl⟩
  rw [hc, res_ok_bind, divR_ok hf, res_ok_bind, hd]
  exact loop fuel _ c h

/-- C45: a zero dimension is a division by zero. -/
theorem c45_zero (pr : Profile) (s : Server) (hf : s.firstDim < 2 ^ 64) (h : s.firstDim = 0 ∨ s.dim = 0 ∧ 1 < s.db.length / s.firstDim) {fuel : Nat} (hfuel : 0 < fuel) :
    s.noOfCts pr fuel = .error .divZero := by
  unfold Server.noOfCts
  rw [addW_ok (by omega), res_ok_bind]
  rcases h with h | ⟨h1, h2⟩
  · simp [divR, h, bind, Except.bind]
  · have hf : s.firstDim ≠ 0 := by intro h0; rw [h0] at h2; simp at h2
    rw [divR_ok hf, res_ok_bind, h1]
    obtain ⟨f, rfl⟩ : ∃ f, fuel = f + 1 := ⟨fuel - 1, by omega⟩
    unfold Server.noOfCtsLoop
    rw [if_pos h2]
    simp [divR, bind, Except.bind]

example (p : Plaintext) : (Server.mk 4 4 (List.replicate 64 p) []).noOfCts .debug 62 = .ok 12 :=
  c45_partial .debug (Server.mk 4 4 (List.replicate 64 p) []) (by norm_num) (by norm_num) (k := 2) (List.length_replicate.trans rfl)
    (by rw [List.length_replicate]; norm_num) (by norm_num) le_rfl

/-! ### C53 -/

/-- C53: for a dimension that is a power of two, `decode` computes the number of dimensions of the database. -/
theorem c53_dimensions_partial (pr : Profile) (s : Server) (hf : 0 < s.firstDim) {a k : Nat} (ha : 0 < a) (hd : s.dim = 2 ^ a)
    (hdb : s.db.length = s.firstDim * s.dim ^ k) (hlen : s.db.length < 2 ^ 64) (hda : a < 64) :
    s.dimensions pr = .ok (k + 1) := by
  have hpow : s.dim ^ k = 2 ^ (a * k) := by rw [hd, ← pow_mul]
  have hlt : a * k < 64 := by
    by_contra hc
    have h1 : 2 ^ 64 ≤ 2 ^ (a * k) := Nat.pow_le_pow_right (by norm_num) (by omega)
    have h2 : 2 ^ (a * k) ≤ s.firstDim * 2 ^ (a * k) := Nat.le_mul_of_pos_left _ hf
    rw [hdb, hpow] at hlen
    omega
  have hk : k ≤ a * k := Nat.le_mul_of_pos_left _ ha
  unfold Server.dimensions
  rw [divR_ok (by omega), res_ok_bind, hdb, Nat.mul_div_cancel_left _ hf, hpow, hd, RnsScaler.ilog2_two_pow pr hlt, res_ok_bind, RnsScaler.ilog2_two_pow pr hda,
    res_ok_bind, divR_ok (by omega), res_ok_bind, Nat.mul_div_cancel_left _ ha, addW_ok (by omega)]

/-- C53: exactly when the number of dimensions is right. For every dimension of at least two the computed number is at least
the number of dimensions of the database, and equal to it exactly if `dim^k < 2^((k+1) * floor(log2 dim))`. -/
theorem c53_dimensions_iff (pr : Profile) (s : Server) (hf : 0 < s.firstDim) (hd : 2 ≤ s.dim) (hd64 : s.dim < 2 ^ 64) {k : Nat}
    (hdb : s.db.length = s.firstDim * s.dim ^ k) (hlen : s.db.length < 2 ^ 64) :
    ∃ d, s.dimensions pr = .ok d ∧ k + 1 ≤ d ∧ (d = k + 1 ↔ s.dim ^ k < 2 ^ ((k + 1) * Nat.log 2 s.dim)) := by
  have hpos : 0 < s.dim ^ k := Nat.pow_pos (by omega)
  have hlt : s.dim ^ k < 2 ^ 64 := lt_of_le_of_lt (Nat.le_mul_of_pos_left _ hf) (hdb ▸ hlen)
  obtain ⟨x, x1, x2, x3⟩ := c13_ilog2 pr (w := 64) (by norm_num) hpos hlt
  obtain ⟨y, y1, y2, y3⟩ := c13_ilog2 pr (w := 64) (by norm_num) (show 1 ≤ s.dim by omega) hd64
  have hy : Nat.log 2 s.dim = y := (Nat.log_eq_iff (by omega)).2 ⟨y2, y3⟩
  have hy1 : 0 < y := by
    rcases Nat.eq_zero_or_pos y with rfl | h
    · omega
    · exact h
  have hx64 : x < 64 := by
    by_contra hc
    have : 2 ^ 64 ≤ 2 ^ x := Nat.pow_le_pow_right (by norm_num) (by omega)
    omega
  have hxy : k * y ≤ x := by
    have h1 : 2 ^ (k * y) ≤ s.dim ^ k := by rw [Nat.mul_comm, pow_mul]; exact Nat.pow_le_pow_left y2 k
    have h2 := lt_of_le_of_lt h1 x3
    have := (Nat.pow_lt_pow_iff_right (by norm_num : 1 < 2)).1 h2
    omega
  have hq : x / y ≤ x := Nat.div_le_self _ _
  refine ⟨x / y + 1, ?_, ?_, ?_⟩
  · unfold Server.dimensions
    rw [divR_ok (by omega), res_ok_bind, hdb, Nat.mul_div_cancel_left _ hf, x1, res_ok_bind, y1, res_ok_bind, divR_ok (by omega),
      res_ok_bind, addW_ok (by omega)]
  · have := (Nat.le_div_iff_mul_le hy1).2 hxy
    omega
  · rw [hy]
    have h3 : x / y + 1 = k + 1 ↔ x < (k + 1) * y := by
      rw [← Nat.div_lt_iff_lt_mul hy1]
      have := (Nat.le_div_iff_mul_le hy1).2 hxy
      omega
    rw [h3]
    constructor
    · intro h
      exact lt_of_lt_of_le x3 (Nat.pow_le_pow_right (by norm_num) h)
    · intro h
      exact (Nat.pow_lt_pow_iff_right (by norm_num : 1 < 2)).1 (lt_of_le_of_lt x2 h)

/-- C53: one and two dimensions are always counted right. -/
theorem c53_two_dimensions_partial (pr : Profile) (s : Server) (hf : 0 < s.firstDim) (hd : 2 ≤ s.dim) (hd64 : s.dim < 2 ^ 64) {k : Nat}
    (hk : k ≤ 1) (hdb : s.db.length = s.firstDim * s.dim ^ k) (hlen : s.db.length < 2 ^ 64) : s.dimensions pr = .ok (k + 1) := by
  obtain ⟨d, h1, -, h2⟩ := c53_dimensions_iff pr s hf hd hd64 hdb hlen
  rw [h1, h2.2]
  have h3 : 0 < Nat.log 2 s.dim := Nat.log_pos (by norm_num) hd
  interval_cases k
  · rw [pow_zero]
    exact Nat.one_lt_two_pow (by omega)
  · rw [pow_one]
    exact lt_of_lt_of_le (Nat.lt_pow_succ_log_self (by norm_num) s.dim) (Nat.pow_le_pow_right (by norm_num) (by omega))

/-- C53 fails otherwise: with `dim = 3`, a database of `first_dim * 3^2` rows has three dimensions but `decode` computes four. -/
theorem c53_dimensions_wrong (pr : Profile) (s : Server) (hf : 0 < s.firstDim) (hd : s.dim = 3) (hdb : s.db.length = s.firstDim * 3 ^ 2) :
    s.dimensions pr = .ok 4 := by
  unfold Server.dimensions
  rw [divR_ok (by omega), res_ok_bind, hdb, Nat.mul_div_cancel_left _ hf, hd]
  cases pr <;> decide

/-- C53: with `dim = 1` it is a division by zero. -/
theorem c53_dimensions_one (pr : Profile) (s : Server) (hf : 0 < s.firstDim) (hd : s.dim = 1) (hdb : s.firstDim ≤ s.db.length) (hlen : s.db.length < 2 ^ 64) :
    s.dimensions pr = .error .divZero := by
  unfold Server.dimensions
  obtain ⟨r, hr, -⟩ := c13_ilog2 pr (w := 64) (v := s.db.length / s.firstDim) (by norm_num) (Nat.div_pos hdb hf) (lt_of_le_of_lt (Nat.div_le_self _ _) hlen)
  rw [divR_ok (by omega), res_ok_bind, hr, res_ok_bind, hd, show ilog2 64 pr 1 = .ok 0 from RnsScaler.ilog2_two_pow (k := 0) pr (by norm_num), res_ok_bind]
  rfl

example (p : Plaintext) : (Server.mk 4 4 (List.replicate 64 p) []).dimensions .debug = .ok 3 ∧
    (Server.mk 2 3 (List.replicate 18 p) []).dimensions .release = .ok 4 :=
  ⟨c53_dimensions_partial .debug (Server.mk 4 4 (List.replicate 64 p) []) (by norm_num) (a := 2) (k := 2) (by decide) rfl (List.length_replicate.trans rfl)
    (by rw [List.length_replicate]; norm_num) (by decide),
    c53_dimensions_wrong .release (Server.mk 2 3 (List.replicate 18 p) []) (by norm_num) rfl List.length_replicate⟩

/-- C42 for the row `(1, 3, 0)` of 4 · 4 · 4, and a client for 2 · 3 whose database length is too small. -/
example : (∃ v, Client.default.encode .release [1, 3, 0] 64 = .ok v ∧ v.length = 12 ∧ OneHotAt v 0 4 1 ∧ OneHotAt v 4 4 3 ∧ OneHotAt v 8 4 0) ∧
    ¬ (∃ v, (Client.mk 2 3).encode .debug [1, 2] 5 = .ok v) ∧ (∃ v, (Client.mk 2 3).encode .debug [1, 2] 11 = .ok v) := by
  refine ⟨?_, ?_, ?_⟩
  · obtain ⟨v, h1, h2, h3, h4⟩ := c42_encode .release Client.default (i0 := 1) (rest := [3, 0]) (dbRows := 64) (by decide) (by decide) (by decide)
      (by decide) (by decide)
    exact ⟨v, h1, h2, h3, h4 0 (by decide), h4 1 (by decide)⟩
  · rw [c42_accepts_partial .debug (Client.mk 2 3) (i0 := 1) (rest := [2]) (by decide) (by decide) 5]; decide
  · rw [c42_accepts_partial .debug (Client.mk 2 3) (i0 := 1) (rest := [2]) (by decide) (by decide) 11]; decide

/-- C45: 50 rows in dimensions 4, 3 (not a product), and servers with `dim = 1` and `dim = 0`. -/
example (p : Plaintext) : (∃ k, (Server.mk 4 3 (List.replicate 50 p) []).noOfCts .debug 62 = .ok (4 + 3 * k) ∧ 12 / 3 ^ k ≤ 1) ∧
    (∀ fuel v, (Server.mk 4 1 (List.replicate 50 p) []).noOfCts .debug fuel ≠ .ok v) ∧
    (∀ fuel, (Server.mk 4 1 (List.replicate 50 p) []).noOfCts .release fuel = .error .diverge) ∧
    (Server.mk 4 0 (List.replicate 50 p) []).noOfCts .debug 5 = .error .divZero := by
  have hl : (List.replicate 50 p).length = 50 := List.length_replicate
  refine ⟨?_, ?_, ?_, ?_⟩
  · obtain ⟨k, h1, h2, -⟩ := c45_no_of_cts .debug (Server.mk 4 3 (List.replicate 50 p) []) (by norm_num) (by norm_num) (by rw [hl]; norm_num)
      (by norm_num) le_rfl
    rw [hl] at h2
    exact ⟨k, h1, show 50 / 4 / 3 ^ k ≤ 1 from h2⟩
  · exact c45_diverges .debug (Server.mk 4 1 (List.replicate 50 p) []) rfl (by rw [hl]; norm_num)
  · exact c45_diverges_release (Server.mk 4 1 (List.replicate 50 p) []) rfl (by rw [hl]; norm_num)
  · exact c45_zero .debug (Server.mk 4 0 (List.replicate 50 p) []) (by norm_num) (.inr ⟨rfl, by rw [hl]; norm_num⟩) (by norm_num)

/-- C53 for 6 = 2 · 3 rows, 54 = 2 · 27 rows and `dim = 1`. -/
example (p : Plaintext) : (Server.mk 2 3 (List.replicate 6 p) []).dimensions .debug = .ok 2 ∧
    (∃ d, (Server.mk 2 3 (List.replicate 54 p) []).dimensions .debug = .ok d ∧ d ≠ 4) ∧
    (Server.mk 2 1 (List.replicate 6 p) []).dimensions .release = .error .divZero := by
  refine ⟨c53_two_dimensions_partial .debug (Server.mk 2 3 (List.replicate 6 p) []) (by norm_num) (by norm_num) (by norm_num) (k := 1) le_rfl
    List.length_replicate (by rw [List.length_replicate]; norm_num), ?_,
    c53_dimensions_one .release (Server.mk 2 1 (List.replicate 6 p) []) (by norm_num) rfl (by rw [List.length_replicate]; norm_num)
      (by rw [List.length_replicate]; norm_num)⟩
  obtain ⟨d, h1, -, h3⟩ := c53_dimensions_iff .debug (Server.mk 2 3 (List.replicate 54 p) []) (by norm_num) (by norm_num) (by norm_num) (k := 3)
    List.length_replicate (by rw [List.length_replicate]; norm_num)
  refine ⟨d, h1, fun h => ?_⟩
  have : 3 ^ 3 < 2 ^ ((3 + 1) * Nat.log 2 3) := h3.mp h
  revert this; decide

end OnionPIR
