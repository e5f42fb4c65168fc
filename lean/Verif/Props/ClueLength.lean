import Verif.Spec.ClueLength
import Verif.Proofs.ClueLength
import Verif.Props.Contracts
import Verif.Props.Detect
import Verif.Props.Succeeds
/-
C111 (src/pvw.rs): exactly when the clue operations return, and what they make of messages and clues that do not have the lengths of the
parameters. The code never compares the lengths.
-/
namespace OnionPIR
open Spec

variable {params : PvwParams} {q : Modulus}

namespace ClueLength

theorem pk {pk : PvwPk} (h : IsPvwPk params pk) : ∀ m, m < params.m → ∃ c, pk[m]? = some c ∧ Pvw.Vec params.q params.n c.a ∧ Pvw.Vec params.q params.ell c.b :=
  fun m hm => (h m hm).imp fun _ hc => ⟨hc.1, Detect.vec hc.2.1, Detect.vec hc.2.2⟩

theorem sk {sk : PvwSk} (h : IsPvwSk params sk) : ∀ l, l < params.ell → ∃ s, sk[l]? = some s ∧ Pvw.Vec params.q params.n s :=
  fun l hl => (h l hl).imp fun _ hs => ⟨hs.1, Detect.vec hs.2⟩

theorem padded_eq (ell : Nat) (msg : List Nat) : padded ell msg = msg.take ell ++ List.replicate (ell - msg.length) 0 := by
  unfold padded
  apply List.ext_getElem
  · simp only [List.length_map, List.length_range, List.length_append, List.length_take, List.length_replicate]; omega
  · intro l h1 h2
    have hl : l < ell := by simpa using h1
    rw [List.getElem_map, List.getElem_range]
    rcases lt_or_ge l msg.length with h | h
    · rw [List.getElem_append_left (by rw [List.length_take]; omega), List.getElem_take, List.getD_eq_getElem _ _ h]
    · rw [List.getElem_append_right (by rw [List.length_take]; omega), List.getElem_replicate, List.getD_eq_default _ _ h]

theorem addMessage_zero (hn : Modulus.new params.q = .ok q) (pr : Profile) {v : Nat} (hv : v < params.q) : Pvw.addMessage pr params q v 0 = .ok v := by
  obtain ⟨h2, h62, hqp, hq⟩ := Modulus.new_inv hn
  unfold Pvw.addMessage
  rw [mulW_ok (by omega), res_ok_bind, Nat.mul_zero, Modulus.add_ok hq pr (by omega) hq.pos, Nat.add_zero, Nat.mod_eq_of_lt (by omega)]

theorem addMessage_debug (hn : Modulus.new params.q = .ok q) {v x : Nat} (hv : v < params.q) :
    (∃ y, Pvw.addMessage .debug params q v x = .ok y) ↔ params.q / 2 * x < params.q := by
  obtain ⟨h2, h62, hqp, hq⟩ := Modulus.new_inv hn
  unfold Pvw.addMessage
  constructor
  · rintro ⟨y, hy⟩
    obtain ⟨w, hw, hy⟩ := bind_eq_ok.mp hy
    unfold mulW fit at hw
    split_ifs at hw with hlt
    obtain rfl := Except.ok.inj hw
    by_contra hc
    unfold Modulus.add at hy
    rw [dassert_ok (show v < q.p by omega), res_ok_bind, Contracts.dassert_fail (show ¬ params.q / 2 * x < q.p by omega)] at hy
    cases hy
  · intro h
    rw [mulW_ok (by omega), res_ok_bind, Modulus.add_ok hq .debug (by omega) (by omega)]
    exact ⟨_, rfl⟩

theorem addMessage_release (hn : Modulus.new params.q = .ok q) (v x : Nat) : ∃ y, Pvw.addMessage .release params q v x = .ok y := by
  obtain ⟨h2, h62, hqp, hq⟩ := Modulus.new_inv hn
  unfold Pvw.addMessage Modulus.add
  have hm : ∃ w, mulW 64 .release (params.q / 2) x = .ok w := by
    unfold mulW fit
    split_ifs <;> exact ⟨_, rfl⟩
  obtain ⟨w, hw⟩ := hm
  rw [hw, res_ok_bind, Contracts.dassert_release, res_ok_bind, Contracts.dassert_release, res_ok_bind, Contracts.addW_release, res_ok_bind,
    Contracts.reduceCt_release (Nat.mod_lt _ (by norm_num)) (by omega)]
  exact ⟨_, rfl⟩

end ClueLength

/-- C111: `gen_sk` returns exactly for the moduli `Modulus::new` accepts. -/
theorem c111_gen_sk (params : PvwParams) (skTape : Nat → Nat → Nat) :
    (∃ sk, Pvw.genSk params skTape = .ok sk) ↔ 2 ≤ params.q ∧ params.q < 2 ^ 62 := by
  rw [← c01_modulus_new]
  unfold Pvw.genSk
  constructor
  · rintro ⟨sk, h⟩
    obtain ⟨q, hq, -⟩ := bind_eq_ok.mp h
    exact ⟨q, hq⟩
  · rintro ⟨q, hq⟩
    rw [hq, res_ok_bind]
    exact ⟨_, rfl⟩

/-- C111: `gen_pk` for a key of the parameters returns exactly if moreover there is nothing to sample or the variance is one of those the sampler
accepts. -/
theorem c111_gen_pk (pr : Profile) {sk : PvwSk} (hsk : IsPvwSk params sk) {aTape rng : Nat → Nat → Nat} (ha : ∀ m i, aTape m i < params.q)
    (hr : ∀ l i, rng l i < 2 ^ 64) :
    (∃ pk, Pvw.genPk pr sk params aTape rng = .ok pk) ↔
      (2 ≤ params.q ∧ params.q < 2 ^ 62) ∧ (params.ell = 0 ∨ 1 ≤ params.variance ∧ params.variance ≤ 16) := by
  rw [← c01_modulus_new]
  constructor
  · rintro ⟨pk, h⟩
    unfold Pvw.genPk at h
    obtain ⟨q, hq, h⟩ := bind_eq_ok.mp h
    refine ⟨⟨q, hq⟩, ?_⟩
    rcases Nat.eq_zero_or_pos params.ell with h0 | h0
    · exact .inl h0
    obtain ⟨cols, hc, -⟩ := bind_eq_ok.mp h
    obtain ⟨x, -, hx⟩ := (mapR_inv hc).2 0 0 (List.getElem?_range h0)
    unfold Pvw.pkColumn at hx
    obtain ⟨raw, hraw, -⟩ := bind_eq_ok.mp hx
    exact .inr (sampleVecCbd_variance hraw)
  · rintro ⟨⟨q, hq⟩, h⟩
    rcases Nat.eq_zero_or_pos params.ell with h0 | h0
    · unfold Pvw.genPk
      rw [hq, res_ok_bind, h0]
      refine ⟨_, mapR_ok (g := fun m => ⟨Pvw.randomVec params.n (aTape m), []⟩) fun m hm => ?_⟩
      rw [idx_of (x := Pvw.randomVec params.n (aTape m)) (by rw [List.getElem?_map, List.getElem?_range (List.mem_range.mp hm)]; rfl)]
      rfl
    · obtain ⟨pk, h1, -⟩ := Pvw.genPk_ok hq pr (h.resolve_left (by omega)).1 (h.resolve_left (by omega)).2 ha hr (ClueLength.sk hsk)
      exact ⟨pk, h1⟩

/-- C111: `encrypt` uses the first `ell` entries of the message, and zeros for entries that are missing. -/
theorem c111_message (hn : Modulus.new params.q = .ok q) (pr : Profile) {pk : PvwPk} (hpk : IsPvwPk params pk) (msg : List Nat) {e : Nat → Nat}
    (he : ∀ m, e m < 2) : Pvw.encrypt pr pk params msg e = Pvw.encrypt pr pk params (padded params.ell msg) e := by
  obtain ⟨st, h1, hb, -⟩ := Pvw.encrypt_state hn pr (ClueLength.pk hpk) he
  unfold Pvw.encrypt
  rw [hn, res_ok_bind, res_ok_bind, h1, res_ok_bind, res_ok_bind, ClueLength.padded_eq,
    zipMutM_pad _ _ _ fun v hv => ClueLength.addMessage_zero hn pr (hb.mem v hv)]
  have := zipMutM_take (f := Pvw.addMessage pr params q) st.1 msg
  rw [hb.1] at this
  rw [this]

/-- C111: in the debug build `encrypt` returns exactly if `⌊q/2⌋ x < q` for the entries `x` it uses; in the release build it always returns. -/
theorem c111_encrypt (hn : Modulus.new params.q = .ok q) {pk : PvwPk} (hpk : IsPvwPk params pk) (msg : List Nat) {e : Nat → Nat} (he : ∀ m, e m < 2) :
    ((∃ ct, Pvw.encrypt .debug pk params msg e = .ok ct) ↔ ∀ x ∈ msg.take params.ell, params.q / 2 * x < params.q) ∧
      ∃ ct, Pvw.encrypt .release pk params msg e = .ok ct := by
  have key : ∀ pr, ∃ b : List Nat, b.length = params.ell ∧ (∀ v ∈ b, v < params.q) ∧ ((∃ ct, Pvw.encrypt pr pk params msg e = .ok ct) ↔
      ∀ x ∈ b.zip msg, ∃ y, Pvw.addMessage pr params q x.1 x.2 = .ok y) := by
    intro pr
    obtain ⟨st, h1, hb, -⟩ := Pvw.encrypt_state hn pr (ClueLength.pk hpk) he
    refine ⟨st.1, hb.1, hb.mem, ?_⟩
    rw [← zipMutM_returns]
    unfold Pvw.encrypt
    rw [hn, res_ok_bind, h1, res_ok_bind]
    constructor
    · rintro ⟨ct, h⟩
      obtain ⟨b, hb, -⟩ := bind_eq_ok.mp h
      exact ⟨b, hb⟩
    · rintro ⟨b, hb⟩
      rw [hb, res_ok_bind]
      exact ⟨_, rfl⟩
  constructor
  · obtain ⟨b, h1, h2, h3⟩ := key .debug
    rw [h3]
    constructor
    · intro h x hx
      obtain ⟨l, hl, rfl⟩ := List.mem_iff_getElem.mp hx
      rw [List.length_take] at hl
      have hm : (b[l]'(by omega), msg[l]'(by omega)) ∈ b.zip msg := by
        rw [← List.getElem_zip (h := by rw [List.length_zip]; omega)]
        exact List.getElem_mem _
      rw [List.getElem_take]
      exact (ClueLength.addMessage_debug hn (h2 _ (List.getElem_mem _))).mp (h _ hm)
    · intro h x hx
      obtain ⟨l, hl, rfl⟩ := List.mem_iff_getElem.mp hx
      rw [List.length_zip] at hl
      rw [List.getElem_zip]
      refine (ClueLength.addMessage_debug hn (h2 _ (List.getElem_mem _))).mpr (h _ ?_)
      have : msg[l]'(by omega) = (msg.take params.ell)[l]'(by rw [List.length_take]; omega) := by rw [List.getElem_take]
      rw [this]
      exact List.getElem_mem _
  · obtain ⟨b, -, -, h3⟩ := key .release
    exact h3.mpr fun x _ => ClueLength.addMessage_release hn _ _

/-- C111: which entries those are. -/
theorem c111_entries {q : Nat} (hq : 2 ≤ q) (x : Nat) : q / 2 * x < q ↔ x ≤ 1 ∨ (x = 2 ∧ ¬ 2 ∣ q) := by
  rcases (show x = 0 ∨ x = 1 ∨ x = 2 ∨ 3 ≤ x by omega) with rfl | rfl | rfl | h
  · omega
  · omega
  · omega
  · have : q / 2 * 3 ≤ q / 2 * x := Nat.mul_le_mul_left _ h
    omega

variable {skTape aTape rng : Nat → Nat → Nat} {e : Nat → Nat}

/-- C111: the run of key generation, encryption and decryption for messages of any length with entries `encrypt` accepts: slot `l` is the decision
about the accumulated error plus `⌊q/2⌋` times the entry, which is zero if the message is too short. -/
theorem c111_value (pr : Profile) (h : PvwChoices params skTape aTape rng e) {msg : List Nat}
    (hx : ∀ x ∈ msg.take params.ell, params.q / 2 * x < params.q) :
    pvwRun pr params skTape aTape rng e msg = .ok ((List.range params.ell).map fun l =>
      clueBit params.q ((pvwError params rng e l + ((params.q / 2 * msg.getD l 0 : Nat) : Int)) % (params.q : Int)).toNat) := by
  obtain ⟨q, hq, -⟩ := Modulus.new_ok h.two_le h.lt
  have hq2 := h.two_le
  have hsk : ∀ l, l < params.ell → ∃ s, ((List.range params.ell).map fun l => Pvw.randomVec params.n (skTape l))[l]? = some s ∧
      Pvw.Vec params.q params.n s := fun l hl =>
    ⟨Pvw.randomVec params.n (skTape l), by rw [List.getElem?_map, List.getElem?_range hl]; rfl, Pvw.vec_randomVec (h.sk l)⟩
  obtain ⟨pk, h1, -, h2⟩ := Pvw.genPk_ok hq pr h.var_pos h.var_le h.a h.rng hsk
  have hpk : IsPvwPk params pk := fun m hm => by
    obtain ⟨c, c1, c2, c3, -⟩ := h2 m hm
    exact ⟨c, c1, ⟨c2.1, c2.mem⟩, c3.1, c3.mem⟩
  have hget : ∀ l, l < params.ell → (padded params.ell msg).getD l 0 = msg.getD l 0 := fun l hl => Pvw.getD_map_range 0 hl
  obtain ⟨ct, h3, h4, h5, h6⟩ := Pvw.encrypt_entries hq pr h2 (msg := padded params.ell msg) (by simp [padded]) (by
    rw [ClueLength.padded_eq]
    intro x hm
    rcases List.mem_append.mp hm with hm | hm
    · exact hx x hm
    · rw [(List.mem_replicate.mp hm).2]; omega) h.e
  rw [← c111_message hq pr hpk msg h.e] at h3
  have h7 := Pvw.decrypt_ok hq pr hsk h4 h5 h6
  unfold pvwRun
  rw [Pvw.genSk, hq]
  simp only [res_ok_bind]
  rw [h1, res_ok_bind, h3, res_ok_bind, h7]
  congr 1
  refine List.map_congr_left fun l hl => ?_
  rw [hget l (List.mem_range.mp hl), Detect.round_eq hq2]
  · rfl
  · exact (Int.toNat_lt (Int.emod_nonneg _ (by omega))).mpr (Int.emod_lt_of_pos _ (by omega))

/-- C111: decryption inverts encryption on messages of bits of any length, up to the padding. -/
theorem c111_roundtrip (pr : Profile) (h : PvwChoices params skTape aTape rng e) {msg : List Nat} (hbit : ∀ x ∈ msg, x < 2)
    (herr : ∀ l, l < params.ell → -((params.q / 4 : Nat) : Int) ≤ pvwError params rng e l ∧
      pvwError params rng e l < ((params.q / 2 : Nat) : Int) - (params.q / 4 : Nat)) :
    pvwRun pr params skTape aTape rng e msg = .ok (padded params.ell msg) := by
  have hp : ∀ x ∈ padded params.ell msg, x < 2 := by
    rw [ClueLength.padded_eq]
    intro x hm
    rcases List.mem_append.mp hm with hm | hm
    · exact hbit x (List.mem_of_mem_take hm)
    · rw [(List.mem_replicate.mp hm).2]; omega
  have hu : ∀ {m : List Nat}, (∀ x ∈ m, x < 2) → ∀ x ∈ m.take params.ell, params.q / 2 * x < params.q := fun hm x hx =>
    (c111_entries h.two_le x).mpr (.inl (by have := hm x (List.mem_of_mem_take hx); omega))
  have := c46_roundtrip pr h (msg := padded params.ell msg) (by simp [padded]) hp herr
  rw [c111_value pr h (hu hp)] at this
  rw [c111_value pr h (hu hbit), ← this]
  congr 1
  refine List.map_congr_left fun l hl => ?_
  rw [show (padded params.ell msg).getD l 0 = msg.getD l 0 from Pvw.getD_map_range 0 (List.mem_range.mp hl)]

/-- C111: for odd `q` both builds accept the entry 2, and it is decrypted as 0: the entries are read modulo 2, with one less unit of room for the
error. -/
theorem c111_two (pr : Profile) (h : PvwChoices params skTape aTape rng e) (hodd : ¬ 2 ∣ params.q) {msg : List Nat} (hx : ∀ x ∈ msg, x ≤ 2)
    (herr : ∀ l, l < params.ell → -((params.q / 4 : Nat) : Int) < pvwError params rng e l ∧
      pvwError params rng e l < ((params.q / 2 : Nat) : Int) - (params.q / 4 : Nat)) :
    pvwRun pr params skTape aTape rng e msg = .ok ((padded params.ell msg).map (· % 2)) := by
  have hq := h.two_le
  have hent : ∀ x, x ≤ 2 → params.q / 2 * x < params.q := fun x hx => (c111_entries hq x).mpr (by omega)
  rw [c111_value pr h fun x hm => hent x (hx x (List.mem_of_mem_take hm))]
  unfold padded
  rw [List.map_map]
  congr 1
  refine List.map_congr_left fun l hl => ?_
  obtain ⟨e1, e2⟩ := herr l (List.mem_range.mp hl)
  have hm : msg.getD l 0 ≤ 2 := by
    rcases lt_or_ge l msg.length with hl | hl
    · rw [List.getD_eq_getElem _ _ hl]; exact hx _ (List.getElem_mem _)
    · rw [List.getD_eq_default _ _ hl]; omega
  show _ = msg.getD l 0 % 2
  generalize pvwError params rng e l = E at *
  generalize msg.getD l 0 = x at *
  generalize params.q = q at *
  have key : ∀ y : ℤ, ∀ z : Nat, (z : ℤ) = y ∨ (z : ℤ) = y + q ∨ (z : ℤ) = y - q → z < q → (y % (q : ℤ)).toNat = z := by
    intro y z hz hlt
    have : y % (q : ℤ) = (z : ℤ) := by
      rcases hz with hz | hz | hz
      · rw [← hz, Int.emod_eq_of_lt (by omega) (by omega)]
      · rw [← Int.add_emod_right, ← hz, Int.emod_eq_of_lt (by omega) (by omega)]
      · rw [← Int.sub_emod_right, ← hz, Int.emod_eq_of_lt (by omega) (by omega)]
    rw [this]; rfl
  rcases (show x = 0 ∨ x = 1 ∨ x = 2 by omega) with rfl | rfl | rfl
  · rw [Nat.mul_zero, Nat.cast_zero, add_zero]
    rcases lt_or_ge E 0 with hE | hE
    · rw [key E (E + q).toNat (.inr (.inl (by omega))) (by omega)]
      unfold clueBit; rw [if_neg (by omega)]
    · rw [key E E.toNat (.inl (by omega)) (by omega)]
      unfold clueBit; rw [if_neg (by omega)]
  · rw [Nat.mul_one, key _ (E + (q / 2 : Nat)).toNat (.inl (by omega)) (by omega)]
    unfold clueBit; rw [if_pos (by omega)]
  · rcases lt_or_ge E 1 with hE | hE
    · rw [key _ (E + ((q / 2 * 2 : Nat) : ℤ)).toNat (.inl (by omega)) (by omega)]
      unfold clueBit; rw [if_neg (by omega)]
    · rw [key _ (E - 1).toNat (.inr (.inr (by omega))) (by omega)]
      unfold clueBit; rw [if_neg (by omega)]

/-- C111: `decrypt` of a clue with canonical values returns exactly if there are at least `ell` values in the second part and, unless `ell = 0`, at
least `n` in the first. It then ignores the other values of the first part, and decides about the other values of the second part as they are. -/
theorem c111_decrypt (hn : Modulus.new params.q = .ok q) (pr : Profile) {sk : PvwSk} (hsk : IsPvwSk params sk) {ct : PvwCiphertext}
    (ha : ∀ x ∈ ct.a, x < params.q) (hb : ∀ x ∈ ct.b, x < params.q) :
    ((∃ out, Pvw.decrypt pr sk params ct = .ok out) ↔ params.ell ≤ ct.b.length ∧ (params.ell = 0 ∨ params.n ≤ ct.a.length)) ∧
      ∀ out, Pvw.decrypt pr sk params ct = .ok out → out = (List.range ct.b.length).map fun l => clueBit params.q
        (if l < params.ell then cluePhase params.q (sk.getD l []) (ct.a.take params.n) (ct.b.getD l 0) else ct.b.getD l 0) := by
  obtain ⟨h2, h62, hqp, hq⟩ := Modulus.new_inv hn
  have value : params.ell ≤ ct.b.length ∧ (params.ell = 0 ∨ params.n ≤ ct.a.length) → Pvw.decrypt pr sk params ct =
      .ok ((List.range ct.b.length).map fun l => clueBit params.q
        (if l < params.ell then cluePhase params.q (sk.getD l []) (ct.a.take params.n) (ct.b.getD l 0) else ct.b.getD l 0)) := by
    rintro ⟨g1, g2⟩
    have hat : params.ell = 0 ∨ Pvw.Vec params.q params.n (ct.a.take params.n) := g2.imp_right fun g =>
      Detect.vec ⟨by rw [List.length_take]; omega, fun x hx => ha x (List.mem_of_mem_take hx)⟩
    unfold Pvw.decrypt
    rw [hn, res_ok_bind, Pvw.decrypt_long hn pr (ClueLength.sk hsk) hat g1 hb
      (E := fun l => (ct.b.getD l 0 : ℤ) - ∑ i ∈ Finset.range params.n, (((sk.getD l []).getD i 0 : Nat) : ℤ) * (((ct.a.take params.n).getD i 0 : Nat) : ℤ))
      (fun l _ => by push_cast; ring), res_ok_bind, mapR_ok (g := fun v => clueBit params.q v), List.map_map]
    · congr 1
      refine List.map_congr_left fun l hl => ?_
      show clueBit _ _ = clueBit _ _
      congr 1
      dsimp only
      split_ifs with hlt
      · unfold cluePhase
        rw [(hat.resolve_left (by omega)).1]
      · rfl
    · intro v hv
      have hlt : v < params.q := by
        obtain ⟨l, hl, rfl⟩ := List.mem_map.mp hv
        split_ifs
        · exact (Int.toNat_lt (Int.emod_nonneg _ (by omega))).mpr (Int.emod_lt_of_pos _ (by omega))
        · rw [List.getD_eq_getElem _ _ (List.mem_range.mp hl)]; exact hb _ (List.getElem_mem _)
      unfold Pvw.round
      rw [addW_ok (by omega), res_ok_bind, divR_ok (by omega), ← Detect.round_eq h2 hlt]; rfl
  refine ⟨⟨fun ⟨out, h⟩ => ?_, fun g => ⟨_, value g⟩⟩, fun out h => ?_⟩
  · unfold Pvw.decrypt at h
    rw [hn, res_ok_bind] at h
    obtain ⟨b, hb, -⟩ := bind_eq_ok.mp h
    exact Pvw.decrypt_needs hb
  · have h' := h
    unfold Pvw.decrypt at h'
    rw [hn, res_ok_bind] at h'
    obtain ⟨b, hb, -⟩ := bind_eq_ok.mp h'
    rw [value (Pvw.decrypt_needs hb)] at h
    exact (Except.ok.inj h).symm

/-! Small parameters: two slots, two entries, modulus 17. -/

private def tiny : PvwParams := ⟨2, 2, 3, 17, 1⟩

private theorem tiny_sk : IsPvwSk tiny [[1, 2], [16, 4]] := by
  intro l hl
  have : l < 2 := hl
  interval_cases l
  · exact ⟨[1, 2], rfl, rfl, by decide⟩
  · exact ⟨[16, 4], rfl, rfl, by decide⟩

private theorem tiny_pk : IsPvwPk tiny [⟨[1, 2], [3, 4]⟩, ⟨[0, 16], [5, 6]⟩, ⟨[7, 8], [9, 10]⟩] := by
  intro m hm
  have : m < 3 := hm
  interval_cases m <;> exact ⟨_, rfl, ⟨rfl, by decide⟩, rfl, by decide⟩

private theorem tiny_choices : PvwChoices tiny (fun _ _ => 3) (fun _ _ => 5) (fun _ _ => 0) (fun _ => 1) :=
  ⟨by decide, by decide, by decide, by decide, fun _ _ => by decide, fun _ _ => by decide, fun _ _ => by decide, fun _ => by decide⟩

private theorem tiny_error (l : Nat) : pvwError tiny (fun _ _ => 0) (fun _ => 1) l = 0 := by
  have : ∀ m < 3, cbd (fun _ => 0) 1 m = 0 := by decide
  show ∑ m ∈ Finset.range 3, cbd (fun _ => 0) 1 m * ((1 : Nat) : ℤ) = 0
  exact Finset.sum_eq_zero fun m hm => by rw [this m (Finset.mem_range.mp hm)]; rfl

example : (∃ sk, Pvw.genSk tiny (fun _ _ => 3) = .ok sk) ∧ ¬ ∃ sk, Pvw.genSk ⟨2, 2, 3, 1, 1⟩ (fun _ _ => 3) = .ok sk :=
  ⟨(c111_gen_sk _ _).mpr ⟨by decide, by decide⟩, fun h => absurd ((c111_gen_sk _ _).mp h).1 (by decide)⟩

example (pr : Profile) : ∃ pk, Pvw.genPk pr [[1, 2], [16, 4]] tiny (fun _ _ => 5) (fun _ _ => 7) = .ok pk :=
  (c111_gen_pk pr tiny_sk (fun _ _ => by decide) (fun _ _ => by decide)).mpr ⟨⟨by decide, by decide⟩, .inr ⟨by decide, by decide⟩⟩

/-- A message of one bit and one of three bits. -/
example (pr : Profile) : pvwRun pr tiny (fun _ _ => 3) (fun _ _ => 5) (fun _ _ => 0) (fun _ => 1) [1] = .ok [1, 0] ∧
    pvwRun pr tiny (fun _ _ => 3) (fun _ _ => 5) (fun _ _ => 0) (fun _ => 1) [1, 0, 1] = .ok [1, 0] ∧
    pvwRun pr tiny (fun _ _ => 3) (fun _ _ => 5) (fun _ _ => 0) (fun _ => 1) [2, 1] = .ok [0, 1] :=
  ⟨c111_roundtrip pr tiny_choices (by decide) fun l _ => by rw [tiny_error]; exact ⟨by decide, by decide⟩,
   c111_roundtrip pr tiny_choices (by decide) fun l _ => by rw [tiny_error]; exact ⟨by decide, by decide⟩,
   c111_two pr tiny_choices (by decide) (by decide) fun l _ => by rw [tiny_error]; exact ⟨by decide, by decide⟩⟩

/-- The debug build refuses the entry 3 unless it is beyond the message; the release build accepts it. -/
example : ∃ q, Modulus.new tiny.q = .ok q ∧
    ¬ (∃ ct, Pvw.encrypt .debug [⟨[1, 2], [3, 4]⟩, ⟨[0, 16], [5, 6]⟩, ⟨[7, 8], [9, 10]⟩] tiny [1, 3] (fun _ => 1) = .ok ct) ∧
    (∃ ct, Pvw.encrypt .debug [⟨[1, 2], [3, 4]⟩, ⟨[0, 16], [5, 6]⟩, ⟨[7, 8], [9, 10]⟩] tiny [1, 2, 3] (fun _ => 1) = .ok ct) ∧
    ∃ ct, Pvw.encrypt .release [⟨[1, 2], [3, 4]⟩, ⟨[0, 16], [5, 6]⟩, ⟨[7, 8], [9, 10]⟩] tiny [1, 3] (fun _ => 1) = .ok ct := by
  obtain ⟨q, hq, -⟩ := Modulus.new_ok (p := tiny.q) (by decide) (by decide)
  exact ⟨q, hq, fun h => absurd ((c111_encrypt hq tiny_pk [1, 3] fun _ => by decide).1.mp h) (by decide),
    (c111_encrypt hq tiny_pk [1, 2, 3] fun _ => by decide).1.mpr (by decide), (c111_encrypt hq tiny_pk [1, 3] fun _ => by decide).2⟩

/-- A clue with one value more in both parts, and one with a value less. -/
example (pr : Profile) : Pvw.decrypt pr [[1, 2], [16, 4]] tiny ⟨[3, 5, 1], [9, 16, 8]⟩ = .ok [0, 0, 1] ∧
    ¬ ∃ out, Pvw.decrypt pr [[1, 2], [16, 4]] tiny ⟨[3], [9, 16]⟩ = .ok out := by
  obtain ⟨q, hq, -⟩ := Modulus.new_ok (p := tiny.q) (by decide) (by decide)
  have h := c111_decrypt hq pr tiny_sk (ct := ⟨[3, 5, 1], [9, 16, 8]⟩) (by decide) (by decide)
  obtain ⟨out, ho⟩ := h.1.mpr ⟨by decide, .inr (by decide)⟩
  have he := h.2 out ho
  refine ⟨by rw [ho, he]; decide, fun g => ?_⟩
  exact absurd ((c111_decrypt hq pr tiny_sk (ct := ⟨[3], [9, 16]⟩) (by decide) (by decide)).1.mp g) (by decide)

end OnionPIR
