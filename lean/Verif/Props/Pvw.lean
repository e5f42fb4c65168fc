import Verif.Spec.Sampling
import Verif.Proofs.Pvw
/-
Properties C46 (PVW round trip) and C47 (default parameters).
-/
namespace OnionPIR
open Spec

/-- The error accumulated in slot `l`: the sum of the key errors selected by the bits `e`. -/
def Spec.pvwError (params : PvwParams) (rng : Nat → Nat → Nat) (e : Nat → Nat) (l : Nat) : Int :=
  ∑ m ∈ Finset.range params.m, cbd (rng l) params.variance m * (e m : Int)

/-- Parameters and random choices the code can have: a modulus `Modulus::new` accepts, a variance the sampler accepts,
canonical uniform values, 64-bit words and bits. -/
structure Spec.PvwChoices (params : PvwParams) (skTape aTape rng : Nat → Nat → Nat) (e : Nat → Nat) : Prop where
  two_le : 2 ≤ params.q
  lt : params.q < 2 ^ 62
  var_pos : 1 ≤ params.variance
  var_le : params.variance ≤ 16
  sk : ∀ l i, skTape l i < params.q
  a : ∀ m i, aTape m i < params.q
  rng : ∀ l i, rng l i < 2 ^ 64
  e : ∀ m, e m < 2

/-- The run of key generation, encryption and decryption. -/
def Spec.pvwRun (pr : Profile) (params : PvwParams) (skTape aTape rng : Nat → Nat → Nat) (e : Nat → Nat) (msg : List Nat) : Res (List Nat) := do
  let sk ← Pvw.genSk params skTape
  let pk ← Pvw.genPk pr sk params aTape rng
  let ct ← Pvw.encrypt pr pk params msg e
  Pvw.decrypt pr sk params ct

variable {params : PvwParams} {skTape aTape rng : Nat → Nat → Nat} {e : Nat → Nat}

/-- C46: nothing panics, and the exact value of every decrypted slot in terms of the accumulated error. -/
theorem c46_value (pr : Profile) (h : PvwChoices params skTape aTape rng e) {msg : List Nat} (hlen : msg.length = params.ell)
    (hbit : ∀ x ∈ msg, x < 2) :
    pvwRun pr params skTape aTape rng e msg = .ok ((List.range params.ell).map fun l =>
      (((pvwError params rng e l + ((params.q / 2 * msg.getD l 0 : Nat) : Int)) % (params.q : Int)).toNat + params.q / 4) / (params.q / 2) % 2) := by
  obtain ⟨q, hq, -⟩ := Modulus.new_ok h.two_le h.lt
  have hsk : ∀ l, l < params.ell → ∃ s, ((List.range params.ell).map fun l => Pvw.randomVec params.n (skTape l))[l]? = some s ∧
      Pvw.Vec params.q params.n s := fun l hl =>
    ⟨Pvw.randomVec params.n (skTape l), by rw [List.getElem?_map, List.getElem?_range hl]; rfl, Pvw.vec_randomVec (h.sk l)⟩
  obtain ⟨pk, h1, -, h2⟩ := Pvw.genPk_ok hq pr h.var_pos h.var_le h.a h.rng hsk
  obtain ⟨ct, h3, h4, h5, h6⟩ := Pvw.encrypt_ok hq pr h2 hlen hbit h.e
  have h7 := Pvw.decrypt_ok hq pr hsk h4 h5 h6
  unfold pvwRun
  rw [Pvw.genSk, hq]
  simp only [res_ok_bind]
  rw [h1, res_ok_bind, h3, res_ok_bind, h7]
  rfl

/-- C46: decryption inverts encryption whenever every accumulated error lies in `[-⌊q/4⌋, ⌊q/2⌋ - ⌊q/4⌋)`. -/
theorem c46_roundtrip (pr : Profile) (h : PvwChoices params skTape aTape rng e) {msg : List Nat} (hlen : msg.length = params.ell)
    (hbit : ∀ x ∈ msg, x < 2) (herr : ∀ l, l < params.ell → -((params.q / 4 : Nat) : Int) ≤ pvwError params rng e l ∧
      pvwError params rng e l < ((params.q / 2 : Nat) : Int) - (params.q / 4 : Nat)) :
    pvwRun pr params skTape aTape rng e msg = .ok msg := by
  rw [c46_value pr h hlen hbit]
  congr 1
  apply List.ext_getElem (by simp [hlen])
  intro l h1 h2
  have hl : l < params.ell := by omega
  rw [List.getElem_map, List.getElem_range, List.getD_eq_getElem _ _ h2]
  have hb := hbit _ (List.getElem_mem h2)
  obtain ⟨e1, e2⟩ := herr l hl
  have hq := h.two_le
  generalize pvwError params rng e l = E at *
  generalize params.q = q at *
  obtain ⟨hh, hd⟩ : ∃ x, q / 2 = x := ⟨_, rfl⟩
  obtain ⟨r, hr⟩ : ∃ x, q / 4 = x := ⟨_, rfl⟩
  have b0 : q = 2 * hh ∨ q = 2 * hh + 1 := by omega
  have b1 : hh = 2 * r ∨ hh = 2 * r + 1 := by omega
  rw [hd, hr] at *
  rcases (show msg[l] = 0 ∨ msg[l] = 1 by omega) with hm | hm
  · rw [hm, Nat.mul_zero, Nat.cast_zero, add_zero]
    rcases lt_or_ge E 0 with hE | hE
    · have : E % (q : Int) = E + q := by
        rw [← Int.add_emod_right, Int.emod_eq_of_lt (by omega) (by omega)]
      rw [this]
      have : ((E + q).toNat + r) / hh = 2 := by
        rw [Nat.div_eq_iff (by omega)]; constructor <;> omega
      rw [this]
    · rw [Int.emod_eq_of_lt hE (by omega), Nat.div_eq_of_lt (by omega)]
  · rw [hm, Nat.mul_one, Int.emod_eq_of_lt (by omega) (by omega)]
    have : ((E + hh).toNat + r) / hh = 1 := by
      rw [Nat.div_eq_iff (by omega)]; constructor <;> omega
    rw [this]

/-- A centered binomial value of variance `v` has absolute value at most `2v`. -/
theorem Spec.cbd_bound (rng : Nat → Nat) (v i : Nat) : -(2 * v : Int) ≤ cbd rng v i ∧ cbd rng v i ≤ 2 * v := cbdValue_bound rng v i

theorem Spec.pvwError_bound (h : ∀ m, e m < 2) (l : Nat) :
    -(2 * params.variance * (∑ m ∈ Finset.range params.m, e m : Nat) : Int) ≤ pvwError params rng e l ∧
      pvwError params rng e l ≤ 2 * params.variance * (∑ m ∈ Finset.range params.m, e m : Nat) := by
  unfold pvwError
  rw [Nat.cast_sum, Finset.mul_sum, ← Finset.sum_neg_distrib]
  constructor <;> refine Finset.sum_le_sum fun m _ => ?_ <;> obtain ⟨b1, b2⟩ := cbd_bound (rng l) params.variance m <;>
    rcases (show e m = 0 ∨ e m = 1 by have := h m; omega) with he | he <;> rw [he] <;> simp <;> linarith

/-- C46: if `m * 2 * variance` stays within the decision interval, decryption inverts encryption for every randomness. -/
theorem c46_always (pr : Profile) (h : PvwChoices params skTape aTape rng e) {msg : List Nat} (hlen : msg.length = params.ell)
    (hbit : ∀ x ∈ msg, x < 2) (h1 : params.m * (2 * params.variance) ≤ params.q / 4)
    (h2 : params.m * (2 * params.variance) < params.q / 2 - params.q / 4) :
    pvwRun pr params skTape aTape rng e msg = .ok msg := by
  refine c46_roundtrip pr h hlen hbit fun l _ => ?_
  obtain ⟨b1, b2⟩ := pvwError_bound (params := params) (rng := rng) h.e l
  have hs : ∑ m ∈ Finset.range params.m, e m ≤ params.m := by
    calc _ ≤ ∑ m ∈ Finset.range params.m, 1 := Finset.sum_le_sum fun m _ => by have := h.e m; omega
      _ = params.m := by simp
  have hb : 2 * params.variance * (∑ m ∈ Finset.range params.m, e m) ≤ params.m * (2 * params.variance) := by
    rw [Nat.mul_comm params.m]; exact Nat.mul_le_mul_left _ hs
  have hb' : ((2 * params.variance * (∑ m ∈ Finset.range params.m, e m) : Nat) : Int) = 2 * params.variance * (∑ m ∈ Finset.range params.m, e m : Nat) := by
    push_cast; ring
  rw [← hb'] at b1 b2
  omega

/-- The hypotheses of `c46_always` hold for parameters with 3 samples and a 20-bit modulus. -/
example : PvwChoices ⟨4, 2, 3, 1048583, 2⟩ (fun _ i => 7 + i % 10) (fun m i => (m + i) % 1000) (fun _ i => 2 ^ 63 + i % 1000) (fun m => m % 2) ∧
    3 * (2 * 2) ≤ 1048583 / 4 ∧ 3 * (2 * 2) < 1048583 / 2 - 1048583 / 4 := by
  refine ⟨⟨by decide, by decide, by decide, by decide, fun _ i => ?_, fun m i => ?_, fun _ i => ?_, fun m => ?_⟩, by decide, by decide⟩ <;>
    show _ < (_ : Nat) <;> norm_num <;> omega

/-! ### C47 -/

/-- C47, the part that holds: with the default parameters decryption returns the encrypted bits for every randomness whose selector
has at most 4095 ones, and more generally whenever all accumulated errors are in `[-16384, 16384)`. What is missing: the statement without
this condition is false, see `c47_default_wrong`. -/
theorem c47_default_partial (pr : Profile) (h : PvwChoices PvwParams.default skTape aTape rng e) {msg : List Nat} (hlen : msg.length = 4)
    (hbit : ∀ x ∈ msg, x < 2) (herr : (∑ m ∈ Finset.range 16000, e m ≤ 4095) ∨
      ∀ l, l < 4 → -16384 ≤ pvwError PvwParams.default rng e l ∧ pvwError PvwParams.default rng e l < 16384) :
    pvwRun pr PvwParams.default skTape aTape rng e msg = .ok msg := by
  refine c46_roundtrip pr h hlen hbit fun l hl => ?_
  have hq : PvwParams.default.q = 65537 := rfl
  rw [hq]
  rcases herr with herr | herr
  · obtain ⟨b1, b2⟩ := pvwError_bound (params := PvwParams.default) (rng := rng) h.e l
    have hm : PvwParams.default.m = 16000 := rfl
    have hv : PvwParams.default.variance = 2 := rfl
    rw [hm, hv] at b1 b2
    norm_num
    omega
  · exact herr l hl

/-- C47, exactly when decryption with the default parameters returns the encrypted bits: a zero bit is returned if and only if its accumulated error is
in `[-16385, 16384)` modulo 65537, a one bit if and only if it is in `[-16384, 16384)` modulo 65537. -/
theorem c47_default_iff_partial (pr : Profile) (h : PvwChoices PvwParams.default skTape aTape rng e) {msg : List Nat} (hlen : msg.length = 4)
    (hbit : ∀ x ∈ msg, x < 2) :
    pvwRun pr PvwParams.default skTape aTape rng e msg = .ok msg ↔ ∀ l, l < 4 →
      (msg.getD l 0 = 0 → (pvwError PvwParams.default rng e l + 16385) % 65537 < 32769) ∧
      (msg.getD l 0 = 1 → (pvwError PvwParams.default rng e l + 16384) % 65537 < 32768) := by
  rw [c46_value pr h hlen hbit]
  have hq : PvwParams.default.q = 65537 := rfl
  have hl : PvwParams.default.ell = 4 := rfl
  simp only [hq, hl]
  obtain ⟨a, b, c, d, rfl⟩ : ∃ a b c d, msg = [a, b, c, d] := by
    match msg, hlen with
    | [a, b, c, d], _ => exact ⟨a, b, c, d, rfl⟩
  have key : ∀ (x : Int) (m : Nat), m < 2 → ((((x + ((65537 / 2 * m : Nat) : Int)) % ((65537 : Nat) : Int)).toNat + 65537 / 4) / (65537 / 2) % 2 = m ↔
      (m = 0 → (x + 16385) % 65537 < 32769) ∧ (m = 1 → (x + 16384) % 65537 < 32768)) := by
    intro x m hm
    rcases (show m = 0 ∨ m = 1 by omega) with rfl | rfl <;> omega
  have e1 : List.range 4 = [0, 1, 2, 3] := rfl
  rw [e1]
  simp only [List.map_cons, List.map_nil, Except.ok.injEq, List.cons.injEq, and_true]
  have ha : a < 2 := hbit a (by simp)
  have hb : b < 2 := hbit b (by simp)
  have hc : c < 2 := hbit c (by simp)
  have hd : d < 2 := hbit d (by simp)
  rw [show [a, b, c, d].getD 0 0 = a from rfl, show [a, b, c, d].getD 1 0 = b from rfl, show [a, b, c, d].getD 2 0 = c from rfl,
    show [a, b, c, d].getD 3 0 = d from rfl, key _ a ha, key _ b hb, key _ c hc, key _ d hd]
  constructor
  · rintro ⟨h0, h1, h2, h3⟩ l hl
    interval_cases l
    · exact h0
    · exact h1
    · exact h2
    · exact h3
  · intro g
    exact ⟨g 0 (by norm_num), g 1 (by norm_num), g 2 (by norm_num), g 3 (by norm_num)⟩

/-- No selected sample: the message comes back. -/
example : pvwRun .debug PvwParams.default (fun _ i => i % 7) (fun m i => (m + i) % 100) (fun _ _ => 5) (fun _ => 0) [1, 0, 1, 1] = .ok [1, 0, 1, 1] := by
  refine (c47_default_iff_partial .debug ⟨by decide, by decide, by decide, by decide, fun _ i => ?_, fun m i => ?_, fun _ _ => by norm_num, fun m => by norm_num⟩
    rfl (by decide)).mpr fun l _ => ?_
  · show _ < 65537
    omega
  · show _ < 65537
    omega
  · have : pvwError PvwParams.default (fun _ _ => 5) (fun _ => 0) l = 0 := by simp [pvwError]
    rw [this]
    exact ⟨fun _ => by decide, fun _ => by decide⟩

/-- C47 fails: there are key, error and selector choices for which the default parameters decrypt a zero bit as one. -/
theorem c47_default_wrong : ∃ skTape aTape rng : Nat → Nat → Nat, ∃ e : Nat → Nat,
    PvwChoices PvwParams.default skTape aTape rng e ∧
    ∀ pr, pvwRun pr PvwParams.default skTape aTape rng e [0, 0, 0, 0] = .ok [1, 1, 1, 1] := by
  have hc : PvwChoices PvwParams.default (fun _ _ => 0) (fun _ _ => 0) (fun _ _ => 0x0F0F0F0F0F0F0F0F) (fun m => if m < 4096 then 1 else 0) :=
    ⟨by decide, by decide, by decide, by decide, fun _ _ => by decide, fun _ _ => by decide, fun _ _ => by norm_num,
      fun m => by split_ifs <;> omega⟩
  refine ⟨_, _, _, _, hc, fun pr => ?_⟩
  rw [c46_value pr hc rfl (by simp)]
  have hcbd : ∀ i, cbd (fun _ => 0x0F0F0F0F0F0F0F0F) 2 i = 4 := by
    intro i
    have h8 : ∀ k, k < 64 → Nat.testBit 0x0F0F0F0F0F0F0F0F k = decide (k % 8 < 4) := by decide
    have h : ∀ j, Nat.testBit 0x0F0F0F0F0F0F0F0F (j % 64) = decide (j % 8 < 4) := fun j => by
      rw [h8 _ (Nat.mod_lt _ (by norm_num)), Nat.mod_mod_of_dvd _ (by norm_num)]
    unfold cbd
    simp only [h]
    have h1 : ∀ k ∈ Finset.range (2 * 2), (decide ((4 * 2 * i + k) % 8 < 4)).toNat = 1 := by
      intro k hk
      have := Finset.mem_range.mp hk
      rw [decide_eq_true (by omega)]; rfl
    have h2 : ∀ k ∈ Finset.range (2 * 2), (decide ((4 * 2 * i + 2 * 2 + k) % 8 < 4)).toNat = 0 := by
      intro k hk
      have := Finset.mem_range.mp hk
      rw [decide_eq_false (by omega)]; rfl
    rw [Finset.sum_congr rfl h1, Finset.sum_congr rfl h2]
    rfl
  have herr : ∀ l, pvwError PvwParams.default (fun _ _ => 0x0F0F0F0F0F0F0F0F) (fun m => if m < 4096 then 1 else 0) l = 16384 := by
    intro l
    unfold pvwError
    have hv : PvwParams.default.variance = 2 := rfl
    have hm : PvwParams.default.m = 4096 + 11904 := rfl
    rw [hv, hm, Finset.sum_range_add]
    have h1 : ∀ m ∈ Finset.range 4096, cbd (fun _ => 0x0F0F0F0F0F0F0F0F) 2 m * (((if m < 4096 then 1 else 0 : Nat)) : Int) = 4 := fun m hk => by
      rw [hcbd, if_pos (Finset.mem_range.mp hk)]; rfl
    have h2 : ∀ m ∈ Finset.range 11904, cbd (fun _ => 0x0F0F0F0F0F0F0F0F) 2 (4096 + m) * (((if 4096 + m < 4096 then 1 else 0 : Nat)) : Int) = 0 := fun m _ => by
      rw [if_neg (by omega)]; simp
    rw [Finset.sum_congr rfl h1, Finset.sum_eq_zero h2]
    simp
  simp only [herr]
  rfl

/-- C46 on these choices: the message 1, 0 comes back. -/
example : pvwRun .release ⟨4, 2, 3, 1048583, 2⟩ (fun _ i => 7 + i % 10) (fun m i => (m + i) % 1000) (fun _ i => 2 ^ 63 + i % 1000) (fun m => m % 2) [1, 0] =
    .ok [1, 0] := by
  refine c46_always .release ⟨by decide, by decide, by decide, by decide, fun _ i => ?_, fun m i => ?_, fun _ i => ?_, fun m => ?_⟩ rfl (by simp)
    (by decide) (by decide) <;> show _ < (_ : Nat) <;> norm_num <;> omega

/-- C46 with errors that cancel and a modulus too small for `c46_always`: the value before rounding is used. -/
example : pvwRun .debug ⟨2, 1, 2, 17, 2⟩ (fun _ i => i % 17) (fun m i => (m + i) % 17) (fun _ _ => 0) (fun _ => 1) [1] = .ok [1] ∧
    ¬ 2 * (2 * 2) ≤ 17 / 4 := by
  have h : PvwChoices ⟨2, 1, 2, 17, 2⟩ (fun _ i => i % 17) (fun m i => (m + i) % 17) (fun _ _ => 0) (fun _ => 1) :=
    ⟨by decide, by decide, by decide, by decide, fun _ i => Nat.mod_lt _ (by norm_num), fun m i => Nat.mod_lt _ (by norm_num),
      fun _ _ => by norm_num, fun _ => by norm_num⟩
  have he : pvwError ⟨2, 1, 2, 17, 2⟩ (fun _ _ => 0) (fun _ => 1) 0 = 0 := by decide +kernel
  refine ⟨c46_roundtrip .debug h rfl (by simp) fun l hl => ?_, by norm_num⟩
  obtain rfl : l = 0 := by simp at hl; omega
  rw [he]; norm_num

/-- C47: the default parameters with the first 4095 samples selected. -/
example : pvwRun .debug PvwParams.default (fun _ i => i % 65537) (fun m i => (m * i) % 65537) (fun _ _ => 0x0F0F0F0F0F0F0F0F)
    (fun m => if m < 4095 then 1 else 0) [1, 0, 1, 1] = .ok [1, 0, 1, 1] :=
  c47_default_partial .debug ⟨by decide, by decide, by decide, by decide, fun _ _ => Nat.mod_lt _ (by decide), fun _ _ => Nat.mod_lt _ (by decide),
    fun _ _ => by norm_num, fun m => by split_ifs <;> omega⟩ rfl (by simp) (.inl (by decide +kernel))

/-- `c46_value` where the bound for correct decryption fails: the error 8 turns the bit. -/
example : pvwRun .debug ⟨2, 1, 2, 17, 2⟩ (fun _ i => i % 17) (fun m i => (m + i) % 17) (fun _ _ => 0x0F0F0F0F0F0F0F0F) (fun _ => 1) [1] = .ok [0] := by
  have h : PvwChoices ⟨2, 1, 2, 17, 2⟩ (fun _ i => i % 17) (fun m i => (m + i) % 17) (fun _ _ => 0x0F0F0F0F0F0F0F0F) (fun _ => 1) :=
    ⟨by decide, by decide, by decide, by decide, fun _ i => Nat.mod_lt _ (by norm_num), fun m i => Nat.mod_lt _ (by norm_num),
      fun _ _ => by norm_num, fun _ => by norm_num⟩
  rw [c46_value .debug h rfl (by simp)]
  decide +kernel

end OnionPIR
