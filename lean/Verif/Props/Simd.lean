import Verif.Spec.Simd
import Verif.Props.Circuit
/-
Properties C72 and C73: SIMD slots under homomorphic operations.
-/
namespace OnionPIR
open Rg Spec

variable {N t : Nat} {l : List Nat} {variance : Nat} {P : BfvParameters}

namespace Simd

theorem two_mul_mod (x n : Nat) (hn : 0 < n) : 2 * (x % n) + 1 = (2 * x + 1) % (2 * n) := by
  have h := Nat.mod_lt x hn
  rw [Nat.add_mod (2 * x), Nat.mul_mod_mul_left, Nat.mod_eq_of_lt (show 1 < 2 * n by omega),
    Nat.mod_eq_of_lt (show 2 * (x % n) + 1 < 2 * n by omega)]

/-- The exponents of the code are those of the specification. -/
theorem slotExp_eq {K : Nat} {ext : List Nat} (hw : P.WF K ext) {k : Nat} (hk : k < 2 ^ K) :
    2 * reverseBits K (P.matrixRepsIndexMap.getD k 0) + 1 = slotExp (2 ^ K) k := by
  have h3 := hw.three
  obtain ⟨pr, hm⟩ := hw.map
  obtain ⟨lm, hlm, -, -, h4⟩ := BfvParameters.indexMap_ok pr (show 2 ≤ K by omega) hw.K60
  rw [hw.deg, hlm] at hm
  cases hm
  have hKK : 2 ^ K = 2 * 2 ^ (K - 1) := by rw [← pow_succ']; congr 1; omega
  have hh : 2 ^ K / 2 = 2 ^ (K - 1) := by omega
  have hp : 0 < 2 ^ K := by positivity
  unfold slotExp
  rw [hh]
  split_ifs with hlt
  · rw [(h4 k hlt).1]
    have h1 := three_pow_odd k (2 ^ K) hp
    have h2 := Nat.mod_lt (3 ^ k) (show 0 < 2 * 2 ^ K by positivity)
    rw [reverseBits_reverseBits _ _ (by omega)]
    omega
  · obtain ⟨i, rfl⟩ : ∃ i, k = 2 ^ (K - 1) + i := ⟨k - 2 ^ (K - 1), by omega⟩
    rw [(h4 i (by omega)).2, Nat.add_sub_cancel_left]
    have h2 := Nat.mod_lt (3 ^ i) (show 0 < 2 * 2 ^ K by positivity)
    rw [reverseBits_reverseBits _ _ (Nat.mod_lt _ hp), two_mul_mod _ _ hp]
    congr 1
    omega

theorem slotExp_odd (hN : 0 < N) (k : Nat) : Odd (slotExp N k) := by
  rw [Nat.odd_iff]
  unfold slotExp
  split_ifs
  · exact three_pow_odd k N hN
  · rw [Nat.mod_mul_right_mod]
    have := Nat.mod_lt (3 ^ (k - N / 2)) (show 0 < 2 * N by omega)
    omega

/-- Decoding, in terms of the root of the operator, for any index map. -/
theorem decode_at {K : Nat} (hs : Plaintext.SimdWF K P) : ∃ psi : ZMod P.plaintextModulus, psi ^ 2 ^ K = -1 ∧
    ∀ (pr : Profile) (lev : Nat) (m : Rg (2 ^ K)), ∃ out, (⟨P, lev, .simd, residues P.plaintextModulus m⟩ : Plaintext).decode pr = .ok out ∧
      out.length = 2 ^ K ∧ ∀ k, k < 2 ^ K → out.getD k 0 < P.plaintextModulus ∧
        (out.getD k 0 : ZMod P.plaintextModulus) = ev (psi ^ (2 * reverseBits K (P.matrixRepsIndexMap.getD k 0) + 1)) m := by
  obtain ⟨op, psi, psiInv, hop, ho, hp⟩ := hs.ntt
  rw [← hp]
  refine ⟨psi, ho.psi_pow, fun pr lev m => ?_⟩
  refine ⟨(List.range (2 ^ K)).map fun i => (rowN m op).getD (P.matrixRepsIndexMap.getD i 0) 0, ?_, ?_, ?_⟩
  · unfold Plaintext.decode
    simp only
    rw [hop, show unwrapR (some op) = .ok op from rfl, res_ok_bind, show residues op.p.p m = rowP m op.p.p from rfl, forward_row ho,
      res_ok_bind, Plaintext.gather_ok hs (length_rowN m op)]
  · simp
  · intro k hk
    have hm := hs.map.2 k hk
    have := NeZero.mk (Nat.pos_iff_ne_zero.mp ho.mod.pos)
    rw [NttOperator.getD_map_of_lt _ _ _ 0 0 (by simpa using hk), show (List.range (2 ^ K)).getD k 0 = k by simp [List.getD, hk],
      getD_rowN m op hm]
    refine ⟨ZMod.val_lt _, ?_⟩
    rw [ZMod.natCast_zmod_val, ptOf, psiOf_eq ho]

/-- Decoding, in terms of the root of the operator. -/
theorem decode (h : IsParams N t l variance P) : ∃ psi : ZMod t, psi ^ N = -1 ∧ ∀ (pr : Profile) (lev : Nat) (m : Rg N),
    ∃ out, (⟨P, lev, .simd, residues t m⟩ : Plaintext).decode pr = .ok out ∧ SlotsOf t psi m out := by
  obtain ⟨K, ext, rfl, hw, rfl, rfl, rfl⟩ := BfvP.params h
  obtain ⟨psi, hp, hd⟩ := decode_at (Plaintext.simdWF hw)
  refine ⟨psi, hp, fun pr lev m => ?_⟩
  obtain ⟨out, o1, o2, o3⟩ := hd pr lev m
  refine ⟨out, o1, o2, fun k hk => ?_⟩
  rw [← slotExp_eq hw hk]
  exact o3 k hk

/-- Decryption followed by decoding, with the same root. -/
theorem decrypt (h : IsParams N t l variance P) {psi : ZMod t} (hd : ∀ (pr : Profile) (lev : Nat) (m : Rg N),
      ∃ out, (⟨P, lev, .simd, residues t m⟩ : Plaintext).decode pr = .ok out ∧ SlotsOf t psi m out) (pr : Profile) {sk : SecretKey}
    (hk : IsKey P sk) {ct : BfvCipherText} {i : Nat} {fs : List (Rg N)} {m : Rg N} {V : ℤ} (hne : fs ≠ []) (hct : IsCt P i fs ct)
    (h2t : 2 * t ≤ l.getD 0 0) (he : Encodes t (levelQ l i) m (phase (keyRing N sk) fs) V) (hV : 4 * V ≤ levelQ l i) :
    ∃ pt out, sk.decrypt pr ct = .ok pt ∧ (pt.setEncoding .simd).decode pr = .ok out ∧ SlotsOf t psi m out := by
  obtain ⟨pt, p1, p2, p3, p4⟩ := c30_decrypt h hk pr hne hct h2t he hV
  obtain ⟨out, o1, o2⟩ := hd pr i m
  refine ⟨pt, out, p1, ?_, o2⟩
  rw [← o1]
  unfold Plaintext.setEncoding
  rw [← p2, ← p3, ← p4]

theorem slot_pow {psi : ZMod t} (hp : psi ^ N = -1) {k : Nat} (hk : Odd k) : (psi ^ k) ^ N = -1 := by
  rw [← pow_mul, mul_comm, pow_mul, hp, hk.neg_one_pow]

/-- The value of a circuit at a point is computed gate by gate. -/
theorem ev_value (hN : 0 < N) {m : Nat → Rg N} {e : Nat → Nat} {r : Nat → Rg N} (he : ∀ j, Odd (e j)) (c : Circuit) :
    ∀ z : ZMod t, z ^ N = -1 → ev z (c.value m e r) = c.atPoint m e r z := by
  induction c with
  | input k => intro z _; rfl
  | add a b iha ihb => intro z hz; unfold Circuit.value Circuit.atPoint; rw [ev_add hN, iha z hz, ihb z hz]
  | sub a b iha ihb => intro z hz; unfold Circuit.value Circuit.atPoint; rw [ev_sub hN, iha z hz, ihb z hz]
  | mulPlain a v iha => intro z hz; unfold Circuit.value Circuit.atPoint; rw [ev_mul hN z hz, iha z hz]
  | mulBig a n iha =>
    intro z hz; unfold Circuit.value Circuit.atPoint; rw [ev_mul hN z hz, iha z hz, ev_int hN z hz, Int.cast_natCast]
  | mul a b iha ihb => intro z hz; unfold Circuit.value Circuit.atPoint; rw [ev_mul hN z hz, iha z hz, ihb z hz]
  | galois a j iha =>
    intro z hz
    unfold Circuit.value Circuit.atPoint
    rw [ev_sg hN z hz, iha _ (slot_pow hz (he j))]
  | external a j iha => intro z hz; unfold Circuit.value Circuit.atPoint; rw [ev_mul hN z hz, iha z hz]

theorem pos (h : IsParams N t l variance P) : 0 < N := by
  obtain ⟨K, ext, rfl, -⟩ := BfvP.params h
  positivity

theorem t_pos (h : IsParams N t l variance P) : 0 < t := by
  obtain ⟨K, ext, -, hw, rfl, -⟩ := BfvP.params h
  exact hw.t_prime.pos

theorem nat_of_cast {a b : Nat} (ha : a < t) (h : (a : ZMod t) = (b : ZMod t)) : a = b % t := by
  rw [← Nat.mod_eq_of_lt ha]
  exact (ZMod.natCast_eq_natCast_iff' a b t).mp h

theorem isVec {psi : ZMod t} {m : Rg N} {out : List Nat} (h1 : out.length = N)
    (h2 : ∀ k, k < N → out.getD k 0 < t ∧ (out.getD k 0 : ZMod t) = ev (psi ^ slotExp N k) m) : IsVec t N out := by
  refine ⟨h1, fun x hx => ?_⟩
  obtain ⟨k, hk, rfl⟩ := List.getElem_of_mem hx
  rw [← getD_eq_getElem' _ _ 0 hk]
  exact (h2 k (by omega)).1

theorem residues_msg (hN : 0 < N) {v : List Nat} (hv : IsVec t N v) : residues t (msgRing N v) = v := by
  unfold residues msgRing
  apply List.ext_getElem (by simp [hv.1])
  intro i h1 h2
  have hi : i < N := by simpa using h1
  have hlt := hv.2 v[i] (List.getElem_mem h2)
  rw [List.getElem_map, List.getElem_range, cf_ofCoeffs hN _ hi]
  have : v.getD i 0 = v[i] := by simp [List.getD, h2]
  rw [this]
  have : ((v[i] : ℤ) % (t : ℤ)) = v[i] := Int.emod_eq_of_lt (by positivity) (by exact_mod_cast hlt)
  rw [this]
  simp

/-- SIMD encoding gives a canonical plaintext. -/
theorem new_isVec (h : IsParams N t l variance P) {pr : Profile} {v : List Nat} (hv : IsVec t N v) {lev : Nat} {pt : Plaintext}
    (hn : Plaintext.new pr P v lev .simd = .ok pt) : IsVec t N pt.values ∧ pt = ⟨P, lev, .simd, pt.values⟩ := by
  obtain ⟨K, ext, rfl, hw, rfl, -⟩ := BfvP.params h
  obtain ⟨e, e1, e2, e3, e4⟩ := Plaintext.scatter_ok (Plaintext.simdWF hw) hv.1.ge hw.t_prime.pos hv.2
  obtain ⟨op, psi, psiInv, hop, how, hp⟩ := hw.ntt
  obtain ⟨b, b1, b2, b3, b4⟩ := NttOperator.forward_backward how pr e2 (by rw [hp]; exact e3)
  unfold Plaintext.new Plaintext.encode at hn
  simp only at hn
  rw [e1, res_ok_bind, hop, show unwrapR (some op) = .ok op from rfl, res_ok_bind, b1, res_ok_bind] at hn
  cases hn
  exact ⟨⟨b2, by rw [hp] at b3; exact b3⟩, rfl⟩

theorem eq_map (o : List Nat) (g : Nat → Nat) (h1 : o.length = N) (h2 : ∀ k, k < N → o.getD k 0 = g k) : o = (List.range N).map g := by
  apply List.ext_getElem (by simp [h1])
  intro i a b
  rw [List.getElem_map, List.getElem_range, ← h2 i (by omega), getD_eq_getElem' _ _ _ a]

end Simd

/-! ### C72: slots under addition and multiplication -/

/-- C72: SIMD decoding evaluates the plaintext polynomial at the points of the slots, for every plaintext. -/
theorem c72_decode (h : IsParams N t l variance P) : ∃ psi : ZMod t, psi ^ N = -1 ∧ ∀ (pr : Profile) (lev : Nat) (m : Rg N),
    ∃ out, (⟨P, lev, .simd, residues t m⟩ : Plaintext).decode pr = .ok out ∧ SlotsOf t psi m out := Simd.decode h

/-- C72: decryption followed by SIMD decoding. -/
theorem c72_decrypt (h : IsParams N t l variance P) : ∃ psi : ZMod t, psi ^ N = -1 ∧ ∀ (pr : Profile) (sk : SecretKey), IsKey P sk →
    ∀ (ct : BfvCipherText) (i : Nat) (fs : List (Rg N)) (m : Rg N) (V : ℤ), fs ≠ [] → IsCt P i fs ct → 2 * t ≤ l.getD 0 0 →
      Encodes t (levelQ l i) m (phase (keyRing N sk) fs) V → 4 * V ≤ levelQ l i →
      ∃ pt out, sk.decrypt pr ct = .ok pt ∧ (pt.setEncoding .simd).decode pr = .ok out ∧ SlotsOf t psi m out := by
  obtain ⟨psi, hp, hd⟩ := Simd.decode h
  exact ⟨psi, hp, fun pr sk hk ct i fs m V hne hct h2t he hV => Simd.decrypt h hd pr hk hne hct h2t he hV⟩

/-- C72: sums and differences of ciphertexts decode to the sums and differences of the slots. -/
theorem c72_add (h : IsParams N t l variance P) {sk : SecretKey} (hk : IsKey P sk) (pr : Profile) {x y : BfvCipherText} {i : Nat}
    {f0 f1 g0 g1 m1 m2 : Rg N} (hx : IsCt P i [f0, f1] x) (hy : IsCt P i [g0, g1] y) (h2t : 2 * t ≤ l.getD 0 0) {V1 V2 : ℤ}
    (e1 : Encodes t (levelQ l i) m1 (phase (keyRing N sk) [f0, f1]) V1) (e2 : Encodes t (levelQ l i) m2 (phase (keyRing N sk) [g0, g1]) V2)
    (hV : 4 * (V1 + V2) ≤ levelQ l i) :
    ∃ z z' ptx pty pt pt' ox oy o o', x.add pr y = .ok z ∧ x.sub pr y = .ok z' ∧ sk.decrypt pr x = .ok ptx ∧ sk.decrypt pr y = .ok pty ∧
      sk.decrypt pr z = .ok pt ∧ sk.decrypt pr z' = .ok pt' ∧ (ptx.setEncoding .simd).decode pr = .ok ox ∧
      (pty.setEncoding .simd).decode pr = .ok oy ∧ (pt.setEncoding .simd).decode pr = .ok o ∧ (pt'.setEncoding .simd).decode pr = .ok o' ∧
      IsVec t N ox ∧ IsVec t N oy ∧ o.length = N ∧ o'.length = N ∧
      ∀ k, k < N → o.getD k 0 = (ox.getD k 0 + oy.getD k 0) % t ∧ o'.getD k 0 = (ox.getD k 0 + (t - oy.getD k 0)) % t := by
  have hN := Simd.pos h
  obtain ⟨psi, hp, hd⟩ := c72_decrypt h
  obtain ⟨z, z1, z2, -, z3⟩ := c32_add h pr hx hy (keyRing N sk)
  obtain ⟨z', y1, y2, -, y3⟩ := c32_sub h pr hx hy (keyRing N sk)
  have n1 : 0 ≤ V1 := by obtain ⟨_, _, hb, -⟩ := e1; exact hb.nonneg hN
  have n2 : 0 ≤ V2 := by obtain ⟨_, _, hb, -⟩ := e2; exact hb.nonneg hN
  obtain ⟨ptx, ox, a1, a2, a3, a4⟩ := hd pr sk hk x i _ m1 V1 (by simp) hx h2t e1 (by linarith)
  obtain ⟨pty, oy, b1, b2, b3, b4⟩ := hd pr sk hk y i _ m2 V2 (by simp) hy h2t e2 (by linarith)
  obtain ⟨pt, o, c1, c2, c3, c4⟩ := hd pr sk hk z i _ _ _ (by simp) z2 h2t (z3 _ _ _ _ e1 e2) hV
  obtain ⟨pt', o', d1, d2, d3, d4⟩ := hd pr sk hk z' i _ _ _ (by simp) y2 h2t (y3 _ _ _ _ e1 e2) hV
  refine ⟨z, z', ptx, pty, pt, pt', ox, oy, o, o', z1, y1, a1, b1, c1, d1, a2, b2, c2, d2, Simd.isVec a3 a4, Simd.isVec b3 b4, c3, d3,
    fun k hk => ⟨?_, ?_⟩⟩
  · apply Simd.nat_of_cast (c4 k hk).1
    rw [(c4 k hk).2, ev_add hN, Nat.cast_add, (a4 k hk).2, (b4 k hk).2]
  · apply Simd.nat_of_cast (d4 k hk).1
    rw [(d4 k hk).2, ev_sub hN, Nat.cast_add, Nat.cast_sub (b4 k hk).1.le, (a4 k hk).2, (b4 k hk).2, ZMod.natCast_self]
    ring

/-- C72: multiplication by a plaintext multiplies the slots by the slots of the plaintext. -/
theorem c72_mul_plain (h : IsParams N t l variance P) {sk : SecretKey} (hk : IsKey P sk) (pr : Profile) {x : BfvCipherText} {p : Plaintext}
    {i : Nat} {f0 f1 m : Rg N} (hx : IsCt P i [f0, f1] x) (hpp : p.params = P) (hl : p.level = i) (hlen : IsVec t N p.values)
    (h2t : 2 * t ≤ l.getD 0 0) {V : ℤ} (e : Encodes t (levelQ l i) m (phase (keyRing N sk) [f0, f1]) V) (hV : 4 * (N * V * t) ≤ levelQ l i) :
    ∃ z ptx pt ox op o, x.mulPlain pr p = .ok z ∧ sk.decrypt pr x = .ok ptx ∧ sk.decrypt pr z = .ok pt ∧
      (ptx.setEncoding .simd).decode pr = .ok ox ∧ (p.setEncoding .simd).decode pr = .ok op ∧ (pt.setEncoding .simd).decode pr = .ok o ∧
      IsVec t N ox ∧ IsVec t N op ∧ o.length = N ∧ ∀ k, k < N → o.getD k 0 = ox.getD k 0 * op.getD k 0 % t := by
  have hN := Simd.pos h
  have ht : t < 2 ^ 64 := by
    obtain ⟨K, ext, -, hw, rfl, -⟩ := BfvP.params h
    exact hw.t_lt.trans (by norm_num)
  obtain ⟨psi, hp, hd⟩ := Simd.decode h
  obtain ⟨z, z1, z2, -, z3⟩ := c34_mul_plain h pr hx hl hlen.1.le (fun a ha => (hlen.2 a ha).trans ht) (keyRing N sk)
  have hB := z3 _ _ t e (fun a ha => (hlen.2 a ha).le)
  have n1 : 0 ≤ V := by obtain ⟨_, _, hb, -⟩ := e; exact hb.nonneg hN
  have hle : V ≤ N * V * t := Circuit.le_scale (by exact_mod_cast hN) n1 (by exact_mod_cast Simd.t_pos h)
  obtain ⟨ptx, ox, a1, a2, a3, a4⟩ := Simd.decrypt h hd pr hk (by simp) hx h2t e (by linarith)
  obtain ⟨pt, o, c1, c2, c3, c4⟩ := Simd.decrypt h hd pr hk (by simp) z2 h2t hB hV
  obtain ⟨op, b1, b3, b4⟩ := hd pr p.level (msgRing N p.values)
  refine ⟨z, ptx, pt, ox, op, o, z1, a1, c1, a2, ?_, c2, Simd.isVec a3 a4, Simd.isVec b3 b4, c3, fun k hk => ?_⟩
  · rw [← b1, Simd.residues_msg hN hlen]
    unfold Plaintext.setEncoding
    rw [hpp]
  · apply Simd.nat_of_cast (c4 k hk).1
    rw [(c4 k hk).2, ev_mul hN _ (Simd.slot_pow hp (Simd.slotExp_odd hN k)), Nat.cast_mul, (a4 k hk).2, (b4 k hk).2]

/-- C72: products of ciphertexts decode to the products of the slots. -/
theorem c72_mul (h : IsParams N t l variance P) (hNn : N * 2 ^ l.length ≤ 2 ^ 57) {sk : SecretKey} (hk : IsKey P sk) (pr : Profile)
    {i : Nat} {x y : BfvCipherText} {f0 f1 g0 g1 : Rg N} (hx : IsCt P i [f0, f1] x) (hy : IsCt P i [g0, g1] y) {rlk : RelinearizationKey}
    (hrp : rlk.params = P) {m1 m2 : Rg N} {S B V1 V2 : ℤ} (hS : Bdd S (keyRing N sk))
    (hrk : IsKsk P l i (keyRing N sk) (keyRing N sk ^ 2) B rlk.ksk)
    (e1 : Encodes t (levelQ l i) m1 (phase (keyRing N sk) [f0, f1]) V1) (e2 : Encodes t (levelQ l i) m2 (phase (keyRing N sk) [g0, g1]) V2)
    (hV1 : 4 * V1 ≤ levelQ l i) (hV2 : 4 * V2 ≤ levelQ l i) (h2t : 2 * t ≤ l.getD 0 0)
    (hV : 4 * productNoise N t l i S V1 V2 B ≤ levelQ l i) :
    ∃ z ptx pty pt ox oy o, multiplyWithStrategy pr x y rlk = .ok z ∧ sk.decrypt pr x = .ok ptx ∧ sk.decrypt pr y = .ok pty ∧
      sk.decrypt pr z = .ok pt ∧ (ptx.setEncoding .simd).decode pr = .ok ox ∧ (pty.setEncoding .simd).decode pr = .ok oy ∧
      (pt.setEncoding .simd).decode pr = .ok o ∧ IsVec t N ox ∧ IsVec t N oy ∧ o.length = N ∧
      ∀ k, k < N → o.getD k 0 = ox.getD k 0 * oy.getD k 0 % t := by
  have hN := Simd.pos h
  have ht := Simd.t_pos h
  obtain ⟨psi, hp, hd⟩ := c72_decrypt h
  obtain ⟨q1, u1, w1, v1⟩ := Circuit.reduce hN ht m1
  obtain ⟨q2, u2, w2, v2⟩ := Circuit.reduce hN ht m2
  have E1 := Circuit.encodes_msg e1 v1
  have E2 := Circuit.encodes_msg e2 v2
  obtain ⟨z, r0, r1, z1, z2, z3⟩ := c50_multiply h hNn pr hx hy hrp hS hrk E1 E2 w1 w2 hV1 hV2
  obtain ⟨ptx, ox, a1, a2, a3, a4⟩ := hd pr sk hk x i _ q1 V1 (by simp) hx h2t E1 hV1
  obtain ⟨pty, oy, b1, b2, b3, b4⟩ := hd pr sk hk y i _ q2 V2 (by simp) hy h2t E2 hV2
  obtain ⟨pt, o, c1, c2, c3, c4⟩ := hd pr sk hk z i _ _ _ (by simp) z2 h2t z3 hV
  refine ⟨z, ptx, pty, pt, ox, oy, o, z1, a1, b1, c1, a2, b2, c2, Simd.isVec a3 a4, Simd.isVec b3 b4, c3, fun k hk => ?_⟩
  apply Simd.nat_of_cast (c4 k hk).1
  rw [(c4 k hk).2, ev_mul hN _ (Simd.slot_pow hp (Simd.slotExp_odd hN k)), Nat.cast_mul, (a4 k hk).2, (b4 k hk).2]

/-- C72: a circuit acts on the slots gate by gate. Galois gates are the only ones that combine different slots. -/
theorem c72_circuit {E : CircuitEnv} (h : IsParams N t l variance E.params) : ∃ psi : ZMod t, psi ^ N = -1 ∧
    ∀ (pr : Profile) (sk : SecretKey) (m : Nat → Rg N) (e : Nat → Nat) (r : Nat → Rg N) (B : CircuitBounds), N * 2 ^ l.length ≤ 2 ^ 57 →
      IsKey E.params sk → E.Good t l (keyRing N sk) m e r B → 2 * t ≤ l.getD 0 0 → ∀ c : Circuit, c.Fits N →
      4 * c.noise N t l E.level B ≤ levelQ l E.level →
      ∃ z pt out, c.run pr E = .ok z ∧ sk.decrypt pr z = .ok pt ∧ (pt.setEncoding .simd).decode pr = .ok out ∧ out.length = N ∧
        ∀ k, k < N → out.getD k 0 < t ∧ (out.getD k 0 : ZMod t) = c.atPoint m e r (psi ^ slotExp N k) := by
  obtain ⟨psi, hp, hd⟩ := c72_decrypt h
  refine ⟨psi, hp, fun pr sk m e r B hNn hk hE h2t c hc hV => ?_⟩
  obtain ⟨z, f0, f1, z1, z2, z3⟩ := c60_run h hNn pr hE c hc hV
  obtain ⟨pt, o, c1, c2, c3, c4⟩ := hd pr sk hk z E.level _ _ _ (by simp) z2 h2t z3 hV
  have hN := Simd.pos h
  refine ⟨z, pt, o, z1, c1, c2, c3, fun k hk => ⟨(c4 k hk).1, ?_⟩⟩
  rw [(c4 k hk).2, Simd.ev_value hN hE.odd c _ (Simd.slot_pow hp (Simd.slotExp_odd hN k))]

/-- C72, end to end: vectors that agree on slots sharing an index (the only ones SIMD encoding can hold, see C28) are added, subtracted and
multiplied slot by slot by encoding, encryption, the homomorphic operation, decryption and decoding, for every randomness. -/
theorem c72_encoded (h : IsParams N t l variance P) {sk : SecretKey} (hk : IsKey P sk) {S : ℤ} (hS : Bdd S (keyRing N sk)) (pr : Profile)
    (hNn : N * 2 ^ l.length ≤ 2 ^ 57) (hv1 : 1 ≤ variance) (hv2 : variance ≤ 16) (h2t : 2 * t ≤ l.getD 0 0)
    (hV : 4 * productNoise N t l 0 S (2 * t * variance + 2 * t) (2 * t * variance + 2 * t) (2 * variance) ≤ levelQ l 0)
    {v w : List Nat} (hv : IsVec t N v) (hw : IsVec t N w)
    (cv : ∀ i j, i < N → j < N → P.matrixRepsIndexMap.getD i 0 = P.matrixRepsIndexMap.getD j 0 → v.getD i 0 = v.getD j 0)
    (cw : ∀ i j, i < N → j < N → P.matrixRepsIndexMap.getD i 0 = P.matrixRepsIndexMap.getD j 0 → w.getD i 0 = w.getD j 0)
    {a1 a2 : Nat → Nat → Nat} (ha1 : TapeAt l 0 a1) (ha2 : TapeAt l 0 a2) {r1 r2 : Nat → Nat} (hr1 : ∀ i, r1 i < 2 ^ 64)
    (hr2 : ∀ i, r2 i < 2 ^ 64) {aR : Nat → Nat → Nat → Nat} (haR : ∀ j, TapeAt l 0 (aR j)) {rR : Nat → Nat → Nat}
    (hrR : ∀ j i, rR j i < 2 ^ 64) :
    ∃ p q x y rlk z z' z'' d d' d'', Plaintext.new pr P v 0 .simd = .ok p ∧ Plaintext.new pr P w 0 .simd = .ok q ∧
      sk.encrypt pr p a1 r1 = .ok x ∧ sk.encrypt pr q a2 r2 = .ok y ∧ RelinearizationKey.new pr sk 0 aR rR = .ok rlk ∧
      x.add pr y = .ok z ∧ x.sub pr y = .ok z' ∧ multiplyWithStrategy pr x y rlk = .ok z'' ∧
      sk.decrypt pr z = .ok d ∧ sk.decrypt pr z' = .ok d' ∧ sk.decrypt pr z'' = .ok d'' ∧
      (d.setEncoding .simd).decode pr = .ok ((List.range N).map fun k => (v.getD k 0 + w.getD k 0) % t) ∧
      (d'.setEncoding .simd).decode pr = .ok ((List.range N).map fun k => (v.getD k 0 + (t - w.getD k 0)) % t) ∧
      (d''.setEncoding .simd).decode pr = .ok ((List.range N).map fun k => v.getD k 0 * w.getD k 0 % t) := by
  have hN := Simd.pos h
  have ht := Simd.t_pos h
  have ht64 : t < 2 ^ 64 := by
    obtain ⟨K, ext, -, hP, rfl, -⟩ := BfvP.params h
    exact hP.t_lt.trans (by norm_num)
  have hl0 : 0 < l.length := by
    obtain ⟨K, ext, -, hP, -, rfl, -⟩ := BfvP.params h
    exact List.length_pos_iff.mpr hP.ne
  obtain ⟨psi, hp, hd⟩ := Simd.decode h
  have enc : ∀ (u : List Nat), IsVec t N u →
      (∀ i j, i < N → j < N → P.matrixRepsIndexMap.getD i 0 = P.matrixRepsIndexMap.getD j 0 → u.getD i 0 = u.getD j 0) →
      ∀ (a : Nat → Nat → Nat), TapeAt l 0 a → ∀ (r : Nat → Nat), (∀ i, r i < 2 ^ 64) →
      ∃ p x, ∃ m f0 f1 : Rg N, Plaintext.new pr P u 0 .simd = .ok p ∧ sk.encrypt pr p a r = .ok x ∧ IsCt P 0 [f0, f1] x ∧
        Encodes t (levelQ l 0) m (phase (keyRing N sk) [f0, f1]) (2 * t * variance + 2 * t) ∧ Bdd t m ∧ SlotsOf t psi m u := by
    intro u hu cu a ha r hr
    obtain ⟨p, out, p1, p2, -, p4⟩ := c28_simd_round_trip_partial h pr pr hu.1 hu.2 0
    obtain ⟨p5, p6⟩ := Simd.new_isVec h hu p1
    obtain ⟨x, f0, f1, x1, x2, x3⟩ := c30_encrypt h hk pr hv1 hv2 (pt := p) (by rw [p6]) (by rw [p6]) p5.1.le
      (fun y hy => (p5.2 y hy).trans ht64) ha hr
    obtain ⟨o, o1, o2⟩ := hd pr 0 (msgRing N p.values)
    rw [Simd.residues_msg hN p5, ← p6, p2] at o1
    cases o1
    rw [p4.mpr cu] at o2
    refine ⟨p, x, _, f0, f1, p1, x1, x2, x3, ?_, o2⟩
    obtain ⟨K, ext, rfl, -⟩ := BfvP.params h
    exact BfvP.msgRing_bdd fun y hy => (p5.2 y hy).le
  obtain ⟨p, x, m1, f0, f1, p1, x1, x2, x3, x4, s1⟩ := enc v hv cv a1 ha1 r1 hr1
  obtain ⟨q, y, m2, g0, g1, q1, y1, y2, y3, y4, s2⟩ := enc w hw cw a2 ha2 r2 hr2
  obtain ⟨rlk, k1, k2, k3, -⟩ := c38_relinearize h hk pr pr hv1 hv2 hl0 haR hrR
  have hV0 : (0 : ℤ) ≤ 2 * t * variance + 2 * t := by positivity
  have hle := Circuit.le_product (N := N) (t := t) (by exact_mod_cast hN) (by exact_mod_cast ht) (hS.nonneg hN) hV0 hV0
    (mul_nonneg (Circuit.switchNoise_nonneg N l 0) (Circuit.isKsk_nonneg h k3))
  have hVs : 4 * ((2 * t * variance + 2 * t : ℤ) + (2 * t * variance + 2 * t)) ≤ levelQ l 0 := by
    unfold productNoise at hV
    linarith
  obtain ⟨z, z1, z2, -, z3⟩ := c32_add h pr x2 y2 (keyRing N sk)
  obtain ⟨z', z1', z2', -, z3'⟩ := c32_sub h pr x2 y2 (keyRing N sk)
  obtain ⟨z'', e0, e1, z1'', z2'', z3''⟩ := c50_multiply h hNn pr x2 y2 k2 hS k3 x3 y3 x4 y4 (by linarith) (by linarith)
  obtain ⟨d, o, b1, b2, b3, b4⟩ := Simd.decrypt h hd pr hk (by simp) z2 h2t (z3 _ _ _ _ x3 y3) hVs
  obtain ⟨d', o', b1', b2', b3', b4'⟩ := Simd.decrypt h hd pr hk (by simp) z2' h2t (z3' _ _ _ _ x3 y3) hVs
  obtain ⟨d'', o'', b1'', b2'', b3'', b4''⟩ := Simd.decrypt h hd pr hk (by simp) z2'' h2t z3'' hV
  refine ⟨p, q, x, y, rlk, z, z', z'', d, d', d'', p1, q1, x1, y1, k1, z1, z1', z1'', b1, b1', b1'', ?_, ?_, ?_⟩
  · rw [b2]
    congr 1
    refine Simd.eq_map o _ b3 fun k hk => Simd.nat_of_cast (b4 k hk).1 ?_
    rw [(b4 k hk).2, ev_add hN, Nat.cast_add, (s1.2 k hk).2, (s2.2 k hk).2]
  · rw [b2']
    congr 1
    refine Simd.eq_map o' _ b3' fun k hk => Simd.nat_of_cast (b4' k hk).1 ?_
    rw [(b4' k hk).2, ev_sub hN, Nat.cast_add, Nat.cast_sub (s2.2 k hk).1.le, (s1.2 k hk).2, (s2.2 k hk).2, ZMod.natCast_self]
    ring
  · rw [b2'']
    congr 1
    refine Simd.eq_map o'' _ b3'' fun k hk => Simd.nat_of_cast (b4'' k hk).1 ?_
    rw [(b4'' k hk).2, ev_mul hN _ (Simd.slot_pow hp (Simd.slotExp_odd hN k)), Nat.cast_mul, (s1.2 k hk).2, (s2.2 k hk).2]

/-- Doubling the slots of an actual encryption, and the difference with itself. -/
example : ∃ P sk ct z pt ptx o ox, IsParams 8 17 Ex.mods 10 P ∧ IsKey P sk ∧ BfvCipherText.add .debug ct ct = .ok z ∧
    sk.decrypt .debug z = .ok pt ∧ sk.decrypt .debug ct = .ok ptx ∧ (pt.setEncoding .simd).decode .debug = .ok o ∧
    (ptx.setEncoding .simd).decode .debug = .ok ox ∧ ∀ k, k < 8 → o.getD k 0 = (ox.getD k 0 + ox.getD k 0) % 17 := by
  obtain ⟨P, sk, ct, f0, f1, h, hk, -, hct, he⟩ := Ex.setup
  obtain ⟨z, _, ptx, pty, pt, _, ox, oy, o, _, h1, -, h2, h3, h4, -, h5, h6, h7, -, -, -, -, -, h8⟩ :=
    c72_add h hk .debug hct hct (by decide) he he (by rw [Ex.levelQ_mods0]; norm_num)
  rw [h2] at h3
  cases h3
  rw [h5] at h6
  cases h6
  exact ⟨P, sk, ct, z, pt, ptx, o, ox, h, hk, h1, h4, h2, h7, h5, fun k hk => (h8 k hk).1⟩

/-- The slots of constant vectors: `5` and `9` in every slot have sum 14, difference 13 and product 11 modulo 17. -/
example : ∃ P sk z z' z'' d d' d'', IsParams 8 17 Ex.mods 10 P ∧ IsKey P sk ∧
    sk.decrypt .debug z = .ok d ∧ sk.decrypt .debug z' = .ok d' ∧ sk.decrypt .debug z'' = .ok d'' ∧
    (d.setEncoding .simd).decode .debug = .ok (List.replicate 8 14) ∧ (d'.setEncoding .simd).decode .debug = .ok (List.replicate 8 13) ∧
    (d''.setEncoding .simd).decode .debug = .ok (List.replicate 8 11) := by
  obtain ⟨P, sk, -, -, -, h, hk, hb, -, -⟩ := Ex.setup
  have hc : ∀ c i j, i < 8 → j < 8 → (List.replicate 8 c).getD i 0 = (List.replicate 8 c).getD j 0 := by
    intro c i j hi hj
    interval_cases i <;> interval_cases j <;> rfl
  obtain ⟨_, _, _, _, _, z, z', z'', d, d', d'', -, -, -, -, -, -, -, -, h1, h2, h3, h4, h5, h6⟩ := c72_encoded h hk hb .debug
    (by norm_num [Ex.mods]) (by norm_num) (by norm_num) (by decide) (by
      unfold productNoise
      rw [Ex.levelQ_mods0, show switchNoise 8 Ex.mods 0 = 8 * (1048609 + 1048721 + 1048897) by decide +kernel]; norm_num)
    (v := List.replicate 8 5) (w := List.replicate 8 9) ⟨rfl, by decide⟩ ⟨rfl, by decide⟩ (fun i j hi hj _ => hc 5 i j hi hj)
    (fun i j hi hj _ => hc 9 i j hi hj) (Ex.tape0 Ex.mods_gt) (Ex.tape0 Ex.mods_gt) Ex.wordTape Ex.wordTape Ex.tapes (fun _ => Ex.wordTape)
  refine ⟨P, sk, z, z', z'', d, d', d'', h, hk, h1, h2, h3, ?_, ?_, ?_⟩
  · rw [h4]; rfl
  · rw [h5]; rfl
  · rw [h6]; rfl

/-! ### C73: slots under Galois automorphisms -/

namespace Simd

theorem cast_first {k : Nat} (hk : k < N / 2) : (slotExp N k : ZMod (2 * N)) = 3 ^ k := by
  unfold slotExp
  rw [if_pos hk, ZMod.natCast_mod, Nat.cast_pow, Nat.cast_ofNat]

theorem cast_second (hN : 0 < N) (i : Nat) : (slotExp N (N / 2 + i) : ZMod (2 * N)) = -(2 * 3 ^ i + 1) := by
  unfold slotExp
  have := Nat.mod_lt (3 ^ i) (show 0 < 2 * N by omega)
  rw [if_neg (by omega), ZMod.natCast_mod, Nat.add_sub_cancel_left, Nat.cast_sub (by omega), Nat.cast_sub (by omega)]
  have h1 : ((4 * N : Nat) : ZMod (2 * N)) = 0 := by
    rw [show 4 * N = 2 * (2 * N) by ring, Nat.cast_mul, ZMod.natCast_self, mul_zero]
  rw [h1, Nat.cast_mul, ZMod.natCast_mod, Nat.cast_pow, Nat.cast_one, Nat.cast_ofNat, Nat.cast_ofNat]
  ring

theorem pow_congr {psi : ZMod t} (hp : psi ^ N = -1) {a b : Nat} (h : (a : ZMod (2 * N)) = b) : psi ^ a = psi ^ b := by
  have h1 : psi ^ (2 * N) = 1 := by rw [mul_comm, pow_mul, hp]; norm_num
  have h2 := (ZMod.natCast_eq_natCast_iff' a b (2 * N)).mp h
  rw [← Nat.div_add_mod a (2 * N), ← Nat.div_add_mod b (2 * N), h2, pow_add, pow_mul, h1, one_pow, pow_add, pow_mul, h1, one_pow]

/-- The root has order `2 N`. -/
theorem pow_inj (h : IsParams N t l variance P) {psi : ZMod t} (hp : psi ^ N = -1) {a b : Nat} (he : psi ^ a = psi ^ b) :
    (a : ZMod (2 * N)) = b := by
  obtain ⟨K, ext, rfl, hw, rfl, -⟩ := BfvP.params h
  have h3 := hw.three
  have hpr := Fact.mk hw.t_prime
  have h8 : 2 ^ 3 ≤ 2 ^ K := Nat.pow_le_pow_right (by norm_num) h3
  have ht2 : 2 < P.plaintextModulus := by
    by_contra hc
    have := hw.t_cong
    rw [Nat.mod_eq_of_lt (by omega)] at this
    exact absurd hw.t_prime (by rw [this]; exact Nat.not_prime_one)
  have hne := Fact.mk ht2
  have ho : orderOf psi = 2 ^ (K + 1) := by
    apply orderOf_eq_prime_pow
    · rw [hp]
      exact ZMod.neg_one_ne_one
    · rw [pow_succ, pow_mul, hp]; norm_num
  -- complement `a` to a multiple of `2 N`
  obtain ⟨c, hc⟩ : ∃ c, 2 * 2 ^ K ∣ a + c := by
    refine ⟨2 * 2 ^ K * a - a, ?_⟩
    have : a ≤ 2 * 2 ^ K * a := Nat.le_mul_of_pos_left _ (by positivity)
    rw [Nat.add_sub_cancel' this]
    exact Nat.dvd_mul_right _ _
  have h1 : psi ^ (a + c) = 1 := by
    rw [← orderOf_dvd_iff_pow_eq_one, ho, pow_succ, mul_comm]
    exact hc
  have h2 : psi ^ (b + c) = 1 := by rw [pow_add, ← he, ← pow_add, h1]
  rw [← orderOf_dvd_iff_pow_eq_one, ho, pow_succ, mul_comm] at h2
  have e1 : ((a + c : Nat) : ZMod (2 * 2 ^ K)) = 0 := (ZMod.natCast_eq_zero_iff _ _).mpr hc
  have e2 : ((b + c : Nat) : ZMod (2 * 2 ^ K)) = 0 := (ZMod.natCast_eq_zero_iff _ _).mpr h2
  push_cast at e1 e2 ⊢
  linear_combination e1 - e2

/-- `3` has order dividing `N/2` modulo `2 N`. -/
theorem three_pow_mod (h : IsParams N t l variance P) (k : Nat) : (3 : ZMod (2 * N)) ^ (k % (N / 2)) = 3 ^ k := by
  obtain ⟨K, ext, rfl, hw, -⟩ := BfvP.params h
  have h3 := hw.three
  have ho := BfvParameters.three_pow_order (K - 2)
  rw [show K - 2 + 1 = K - 1 by omega, show K - 2 + 3 = K + 1 by omega] at ho
  have hKK : 2 ^ K = 2 * 2 ^ (K - 1) := by rw [← pow_succ']; congr 1; omega
  have hh : 2 ^ K / 2 = 2 ^ (K - 1) := by omega
  have h1 : (3 : ZMod (2 * 2 ^ K)) ^ 2 ^ (K - 1) = 1 := by
    have : ((3 ^ 2 ^ (K - 1) : Nat) : ZMod (2 * 2 ^ K)) = (1 : Nat) := by
      rw [ZMod.natCast_eq_natCast_iff', ← pow_succ', ho, Nat.mod_eq_of_lt (Nat.one_lt_two_pow (by omega))]
    push_cast at this
    exact this
  rw [hh]
  conv_rhs => rw [← Nat.div_add_mod k (2 ^ (K - 1)), pow_add, pow_mul, h1, one_pow, one_mul]

theorem three_pow_mod_eight (i : Nat) : 3 ^ i % 8 = 1 ∨ 3 ^ i % 8 = 3 := by
  induction i with
  | zero => left; rfl
  | succ j ih => rw [pow_succ]; omega

end Simd

/-- C73, on plaintexts: the substitution `X ↦ X^e` with `e ≡ 3^r` rotates the first row of slots by `r`. -/
theorem c73_rotate_plain_partial (h : IsParams N t l variance P) (pr : Profile) (lev : Nat) (m : Rg N) {e r : Nat}
    (he : e % (2 * N) = 3 ^ r % (2 * N)) :
    ∃ o o', (⟨P, lev, .simd, residues t m⟩ : Plaintext).decode pr = .ok o ∧
      (⟨P, lev, .simd, residues t (sg e m)⟩ : Plaintext).decode pr = .ok o' ∧ o.length = N ∧ o'.length = N ∧
      ∀ k, k < N / 2 → o'.getD k 0 = o.getD ((k + r) % (N / 2)) 0 := by
  have hN := Simd.pos h
  obtain ⟨psi, hp, hd⟩ := Simd.decode h
  obtain ⟨o, o1, o2, o3⟩ := hd pr lev m
  obtain ⟨o', p1, p2, p3⟩ := hd pr lev (sg e m)
  refine ⟨o, o', o1, p1, o2, p2, fun k hk => ?_⟩
  have hk' : (k + r) % (N / 2) < N / 2 := Nat.mod_lt _ (by omega)
  obtain ⟨a1, a2⟩ := p3 k (by omega)
  obtain ⟨b1, b2⟩ := o3 ((k + r) % (N / 2)) (by omega)
  rw [← Nat.mod_eq_of_lt b1]
  apply Simd.nat_of_cast a1
  rw [a2, b2, ev_sg hN _ (Simd.slot_pow hp (Simd.slotExp_odd hN k)), ← pow_mul]
  congr 1
  apply Simd.pow_congr hp
  have he' : (e : ZMod (2 * N)) = 3 ^ r := by
    have := (ZMod.natCast_eq_natCast_iff' e (3 ^ r) (2 * N)).mpr he
    push_cast at this
    exact this
  rw [Simd.cast_first hk', Simd.three_pow_mod h, Nat.cast_mul, Simd.cast_first hk, he', pow_add]

/-- C73 fails for the second row: for the message `X` no slot of the second row is rotated, unless the substitution is the identity. -/
theorem c73_second_row_wrong (h : IsParams N t l variance P) (pr : Profile) (lev : Nat) {e r : Nat}
    (he : e % (2 * N) = 3 ^ r % (2 * N)) (hr : 3 ^ r % (2 * N) ≠ 1) :
    ∃ o o', (⟨P, lev, .simd, residues t (xx : Rg N)⟩ : Plaintext).decode pr = .ok o ∧
      (⟨P, lev, .simd, residues t (sg e xx : Rg N)⟩ : Plaintext).decode pr = .ok o' ∧
      ∀ i, i < N / 2 → o'.getD (N / 2 + i) 0 ≠ o.getD (N / 2 + (i + r) % (N / 2)) 0 := by
  have hN := Simd.pos h
  obtain ⟨psi, hp, hd⟩ := Simd.decode h
  obtain ⟨o, o1, o2, o3⟩ := hd pr lev xx
  obtain ⟨o', p1, p2, p3⟩ := hd pr lev (sg e xx)
  refine ⟨o, o', o1, p1, fun i hi hc => hr ?_⟩
  have hk' : (i + r) % (N / 2) < N / 2 := Nat.mod_lt _ (by omega)
  obtain ⟨a1, a2⟩ := p3 (N / 2 + i) (by omega)
  obtain ⟨b1, b2⟩ := o3 (N / 2 + (i + r) % (N / 2)) (by omega)
  rw [hc, b2, ev_sg hN _ (Simd.slot_pow hp (Simd.slotExp_odd hN _)), ← pow_mul, ev_xx hN _ (Simd.slot_pow hp (Simd.slotExp_odd hN _)),
    ev_xx hN _ (Simd.slot_pow hp ((Simd.slotExp_odd hN _).mul ?_))] at a2
  · have h1 := Simd.pow_inj h hp a2
    have he' : (e : ZMod (2 * N)) = 3 ^ r := by
      have := (ZMod.natCast_eq_natCast_iff' e (3 ^ r) (2 * N)).mpr he
      push_cast at this
      exact this
    rw [Simd.cast_second hN, Nat.cast_mul, Simd.cast_second hN, he', Simd.three_pow_mod h, pow_add] at h1
    have h2 : ((3 ^ r : Nat) : ZMod (2 * N)) = (1 : Nat) := by
      push_cast
      linear_combination h1
    rw [ZMod.natCast_eq_natCast_iff', Nat.mod_eq_of_lt (show 1 < 2 * N by omega)] at h2
    exact h2
  · rw [Nat.odd_iff, ← Nat.mod_mul_right_mod e 2 N, he]
    exact three_pow_odd r N hN

/-- C73 fails for the exchange of the rows by `X ↦ X^(2N-1)`: for the message `X` no slot of the first row receives the value of the slot
below it. -/
theorem c73_swap_wrong (h : IsParams N t l variance P) (pr : Profile) (lev : Nat) :
    ∃ o o', (⟨P, lev, .simd, residues t (xx : Rg N)⟩ : Plaintext).decode pr = .ok o ∧
      (⟨P, lev, .simd, residues t (sg (2 * N - 1) xx : Rg N)⟩ : Plaintext).decode pr = .ok o' ∧
      ∀ i, i < N / 2 → o'.getD i 0 ≠ o.getD (N / 2 + i) 0 := by
  have hN := Simd.pos h
  obtain ⟨psi, hp, hd⟩ := Simd.decode h
  obtain ⟨o, o1, o2, o3⟩ := hd pr lev xx
  obtain ⟨o', p1, p2, p3⟩ := hd pr lev (sg (2 * N - 1) xx)
  refine ⟨o, o', o1, p1, fun i hi hc => ?_⟩
  obtain ⟨a1, a2⟩ := p3 i (by omega)
  obtain ⟨b1, b2⟩ := o3 (N / 2 + i) (by omega)
  rw [hc, b2, ev_sg hN _ (Simd.slot_pow hp (Simd.slotExp_odd hN _)), ← pow_mul, ev_xx hN _ (Simd.slot_pow hp (Simd.slotExp_odd hN _)),
    ev_xx hN _ (Simd.slot_pow hp ((Simd.slotExp_odd hN _).mul (by rw [Nat.odd_iff]; omega)))] at a2
  have h1 := Simd.pow_inj h hp a2
  rw [Simd.cast_second hN, Nat.cast_mul, Simd.cast_first hi, Nat.cast_sub (by omega), ZMod.natCast_self] at h1
  have h2 : ((3 ^ i + 1 : Nat) : ZMod (2 * N)) = 0 := by
    push_cast at h1 ⊢
    linear_combination -h1
  rw [ZMod.natCast_eq_zero_iff] at h2
  -- `3^i + 1` is 2 or 4 modulo 8
  have h8 : 8 ∣ 2 * N := by
    obtain ⟨K, ext, rfl, hw, -⟩ := BfvP.params h
    have : (2 : Nat) ^ 3 ∣ 2 ^ K := pow_dvd_pow 2 hw.three
    exact (this.trans (Dvd.intro_left 2 rfl))
  have h9 := h8.trans h2
  have h10 := Simd.three_pow_mod_eight i
  omega

/-- C73, on ciphertexts: a Galois key for `e ≡ 3^r` rotates the first row of slots by `r`, within the noise budget. Missing: the second row
and the exchange of the rows, which are wrong (`c73_second_row_wrong`, `c73_swap_wrong`). -/
theorem c73_rotate_partial (h : IsParams N t l variance P) {sk : SecretKey} (hk : IsKey P sk) (pr : Profile) (hv1 : 1 ≤ variance)
    (hv2 : variance ≤ 16) (hl : l.length ≠ 1) (hN : N ≤ 2 ^ 31) {i : Nat} {c : RqContext} (hi : P.qCtxs[i]? = some c) {e r : Nat}
    (he : e % (2 * N) = 3 ^ r % (2 * N)) {aTape : Nat → Nat → Nat → Nat} (ha : ∀ j, TapeAt l i (aTape j)) {rng : Nat → Nat → Nat}
    (hr : ∀ j i, rng j i < 2 ^ 64) (h2t : 2 * t ≤ l.getD 0 0) :
    ∃ sub g, Substitution.new pr c e = .ok sub ∧ GaliosKey.new pr sk sub i aTape rng = .ok g ∧
      ∀ ct, ∀ f0 f1 m : Rg N, ∀ V, IsCt P i [f0, f1] ct → Encodes t (levelQ l i) m (phase (keyRing N sk) [f0, f1]) V →
        4 * (V + t * (switchNoise N l i * (2 * variance))) ≤ levelQ l i →
        ∃ ct' p p' o o', g.relinearize pr ct = .ok ct' ∧ sk.decrypt pr ct = .ok p ∧ sk.decrypt pr ct' = .ok p' ∧
          (p.setEncoding .simd).decode pr = .ok o ∧ (p'.setEncoding .simd).decode pr = .ok o' ∧ o.length = N ∧ o'.length = N ∧
          ∀ k, k < N / 2 → o'.getD k 0 = o.getD ((k + r) % (N / 2)) 0 := by
  have hN0 := Simd.pos h
  have hodd : Odd e := by
    rw [Nat.odd_iff, ← Nat.mod_mul_right_mod e 2 N, he]
    exact three_pow_odd r N hN0
  obtain ⟨sub, g, h1, h2, h3, -⟩ := c37_galois h hk pr pr hv1 hv2 hl hN hi hodd ha hr
  refine ⟨sub, g, h1, h2, fun ct f0 f1 m V hct henc hV => ?_⟩
  obtain ⟨ct', r0, r1, E, g1, g2, -, -, g3⟩ := h3 ct f0 f1 hct
  have hn : (0 : ℤ) ≤ t * (switchNoise N l i * (2 * variance)) := by
    have := Circuit.switchNoise_nonneg N l i
    positivity
  obtain ⟨p, p1, p2, p3, p4⟩ := c30_decrypt h hk pr (by simp) hct h2t henc (by linarith)
  obtain ⟨p', q1, q2, q3, q4⟩ := c30_decrypt h hk pr (by simp) g2 h2t (g3 _ _ henc) hV
  obtain ⟨o, o', o1, o2, o3, o4, o5⟩ := c73_rotate_plain_partial h pr i m he
  refine ⟨ct', p, p', o, o', g1, p1, q1, ?_, ?_, o3, o4, o5⟩
  · rw [← o1]
    unfold Plaintext.setEncoding
    rw [← p2, ← p3, ← p4]
  · rw [← o2]
    unfold Plaintext.setEncoding
    rw [← q2, ← q3, ← q4]

/-- Rotating the first row of an actual encryption by one slot with `X ↦ X^3`. -/
example : ∃ P sk ct ct' g p p' o o', IsParams 8 17 Ex.mods 10 P ∧ IsKey P sk ∧ GaliosKey.relinearize .debug g ct = .ok ct' ∧
    sk.decrypt .debug ct = .ok p ∧ sk.decrypt .debug ct' = .ok p' ∧ (p.setEncoding .simd).decode .debug = .ok o ∧
    (p'.setEncoding .simd).decode .debug = .ok o' ∧ o'.getD 0 0 = o.getD 1 0 ∧ o'.getD 3 0 = o.getD 0 0 := by
  obtain ⟨P, sk, ct, f0, f1, h, hk, -, hct, he⟩ := Ex.setup
  obtain ⟨c, hc⟩ : ∃ c, P.qCtxs[0]? = some c := by
    obtain ⟨p, c, hc, -⟩ := c33_exists_poly h (i := 0) (by decide) (1 : Rg 8)
    exact ⟨c, hc⟩
  obtain ⟨sub, g, -, -, h3⟩ := c73_rotate_partial h hk .debug (by norm_num) (by norm_num) (by decide) (by norm_num) hc (e := 3) (r := 1)
    (by norm_num) Ex.tapes (fun _ => Ex.wordTape) (by decide)
  obtain ⟨ct', p, p', o, o', h4, h5, h6, h7, h8, -, -, h9⟩ := h3 ct f0 f1 _ _ hct he
    (by rw [Ex.levelQ_mods0, show switchNoise 8 Ex.mods 0 = 8 * (1048609 + 1048721 + 1048897) by decide +kernel]; norm_num)
  exact ⟨P, sk, ct, ct', g, p, p', o, o', h, hk, h4, h5, h6, h7, h8, h9 0 (by norm_num), h9 3 (by norm_num)⟩

/-- The violations of C73 occur: parameters of degree 8, rotation by one slot and exchange of the rows. -/
example : ∃ P o o' o'', IsParams 8 17 Ex.mods 10 P ∧ (⟨P, 0, .simd, residues 17 (xx : Rg 8)⟩ : Plaintext).decode .debug = .ok o ∧
    (⟨P, 0, .simd, residues 17 (sg 3 xx : Rg 8)⟩ : Plaintext).decode .debug = .ok o' ∧ o'.getD 4 0 ≠ o.getD 5 0 ∧
    (⟨P, 0, .simd, residues 17 (sg 15 xx : Rg 8)⟩ : Plaintext).decode .debug = .ok o'' ∧ o''.getD 0 0 ≠ o.getD 4 0 := by
  obtain ⟨P, h⟩ := Ex.exists_params
  obtain ⟨o, o', h1, h2, h3⟩ := c73_second_row_wrong h .debug 0 (e := 3) (r := 1) (by norm_num) (by norm_num)
  obtain ⟨q, o'', h4, h5, h6⟩ := c73_swap_wrong h .debug 0
  rw [h1] at h4
  cases h4
  exact ⟨P, o, o', o'', h, h1, h2, h3 0 (by norm_num), h5, h6 0 (by norm_num)⟩

/-- `c72_mul_plain` and `c72_decode` on an actual encryption. -/
example : ∃ P sk ct z ptx pt ox op o, IsParams 8 17 Ex.mods 10 P ∧ IsKey P sk ∧ ct.mulPlain .debug ⟨P, 0, .poly, [1, 0, 5, 0, 0, 0, 2, 0]⟩ = .ok z ∧
    sk.decrypt .debug ct = .ok ptx ∧ sk.decrypt .debug z = .ok pt ∧ (ptx.setEncoding .simd).decode .debug = .ok ox ∧
    (⟨P, 0, .simd, [1, 0, 5, 0, 0, 0, 2, 0]⟩ : Plaintext).decode .debug = .ok op ∧ (pt.setEncoding .simd).decode .debug = .ok o ∧
    ∀ k, k < 8 → o.getD k 0 = ox.getD k 0 * op.getD k 0 % 17 := by
  obtain ⟨P, sk, ct, f0, f1, h, hk, -, hct, he⟩ := Ex.setup
  obtain ⟨z, ptx, pt, ox, op, o, h1, h2, h3, h4, h5, h6, -, -, -, h7⟩ := c72_mul_plain h hk .debug hct (p := ⟨P, 0, .poly, [1, 0, 5, 0, 0, 0, 2, 0]⟩)
    rfl rfl (show IsVec 17 8 [1, 0, 5, 0, 0, 0, 2, 0] from ⟨rfl, by decide⟩) (by decide) he (by rw [Ex.levelQ_mods0]; norm_num)
  exact ⟨P, sk, ct, z, ptx, pt, ox, op, o, h, hk, h1, h2, h3, h4, h5, h6, h7⟩

/-- `c72_decrypt` and `c72_decode` on an actual encryption, `c73_rotate_plain_partial` on its message. -/
example : ∃ P sk ct pt out o o', ∃ psi : ZMod 17, IsParams 8 17 Ex.mods 10 P ∧ IsKey P sk ∧ sk.decrypt .debug ct = .ok pt ∧
    (pt.setEncoding .simd).decode .debug = .ok out ∧ SlotsOf 17 psi (msgRing 8 [3, 1, 16, 0, 2, 0, 0, 9]) out ∧
    (⟨P, 0, .simd, residues 17 (msgRing 8 [3, 1, 16, 0, 2, 0, 0, 9])⟩ : Plaintext).decode .debug = .ok o ∧
    (⟨P, 0, .simd, residues 17 (sg 9 (msgRing 8 [3, 1, 16, 0, 2, 0, 0, 9]))⟩ : Plaintext).decode .debug = .ok o' ∧ o'.getD 1 0 = o.getD 3 0 := by
  obtain ⟨P, sk, ct, f0, f1, h, hk, -, hct, he⟩ := Ex.setup
  obtain ⟨psi, -, h1⟩ := c72_decrypt h
  obtain ⟨pt, out, h2, h3, h4⟩ := h1 .debug sk hk ct 0 [f0, f1] _ _ (by simp) hct (by decide) he (by rw [Ex.levelQ_mods0]; norm_num)
  obtain ⟨o, o', h5, h6, -, -, h7⟩ := c73_rotate_plain_partial h .debug 0 (msgRing 8 [3, 1, 16, 0, 2, 0, 0, 9]) (e := 9) (r := 2) (by norm_num)
  exact ⟨P, sk, ct, pt, out, o, o', psi, h, hk, h2, h3, h4, h5, h6, h7 1 (by norm_num)⟩

/-- `c72_mul` on an actual encryption, multiplied by itself with an actual relinearization key. -/
example : ∃ P sk ct rlk z pt ptx o ox, IsParams 8 17 Ex.mods 10 P ∧ IsKey P sk ∧ multiplyWithStrategy .debug ct ct rlk = .ok z ∧
    sk.decrypt .debug ct = .ok ptx ∧ sk.decrypt .debug z = .ok pt ∧ (ptx.setEncoding .simd).decode .debug = .ok ox ∧
    (pt.setEncoding .simd).decode .debug = .ok o ∧ ∀ k, k < 8 → o.getD k 0 = ox.getD k 0 * ox.getD k 0 % 17 := by
  obtain ⟨P, sk, ct, f0, f1, h, hk, hb, hct, he⟩ := Ex.setup
  obtain ⟨rlk, -, h2, h3, -⟩ := c38_relinearize h hk .debug .debug (by norm_num) (by norm_num) (i := 0) (by decide) Ex.tapes (fun _ => Ex.wordTape)
  obtain ⟨z, ptx, pty, pt, ox, oy, o, a1, a2, a3, a4, a5, a6, a7, -, -, -, a8⟩ := c72_mul h (by norm_num [Ex.mods]) hk .debug hct hct h2 hb h3 he he
    (by rw [Ex.levelQ_mods0]; norm_num) (by rw [Ex.levelQ_mods0]; norm_num) (by decide) (by
      unfold productNoise
      rw [Ex.levelQ_mods0, show switchNoise 8 Ex.mods 0 = 8 * (1048609 + 1048721 + 1048897) by decide +kernel]; norm_num)
  rw [a2] at a3
  cases a3
  rw [a5] at a6
  cases a6
  exact ⟨P, sk, ct, rlk, z, pt, ptx, o, ox, h, hk, a1, a2, a4, a5, a7, a8⟩

/-- A circuit on fresh ciphertexts, decoded to slots. -/
example : ∃ (E : CircuitEnv) (sk : SecretKey) (z : BfvCipherText) (pt : Plaintext) (out : List Nat) (psi : ZMod 17), IsParams 8 17 Ex.mods 10 E.params ∧ IsKey E.params sk ∧
    psi ^ 8 = -1 ∧ (Circuit.sub (.mul (.input 0) (.input 1)) (.mulPlain (.input 0) [5, 0, 1])).run .debug E = .ok z ∧ sk.decrypt .debug z = .ok pt ∧
    (pt.setEncoding .simd).decode .debug = .ok out ∧ out.length = 8 ∧
    (out.getD 0 0 : ZMod 17) = (Circuit.sub (.mul (.input 0) (.input 1)) (.mulPlain (.input 0) [5, 0, 1])).atPoint
      (fun k => msgRing 8 (if k = 0 then [1, 2] else [0, 0, 0, 0, 0, 0, 0, 3])) (fun _ => 9) (fun _ => msgRing 8 [0, 1]) (psi ^ slotExp 8 0) := by
  obtain ⟨P, sk, h, hk, hb⟩ := Ex.setup_key
  have h8 : ∀ k : Nat, (if k = 0 then [1, 2] else [0, 0, 0, 0, 0, 0, 0, 3] : List Nat).length ≤ 8 ∧
      ∀ x ∈ (if k = 0 then [1, 2] else [0, 0, 0, 0, 0, 0, 0, 3] : List Nat), x < 2 ^ 64 := by
    intro k; split <;> exact ⟨by norm_num, by decide⟩
  obtain ⟨E, c, rfl, h0, -, -, -, -, -, hE⟩ := c60_fresh (e := fun _ => 9) (rs := fun _ => [0, 1]) (M := 1) h hk hb .debug (by norm_num)
    (by norm_num) (by decide) (by norm_num) h8 (fun _ => ⟨by norm_num, by decide⟩) (fun _ => by decide) (fun _ => Ex.tape0 Ex.mods_gt)
    (fun _ => Ex.wordTape) Ex.tapes (fun _ => Ex.wordTape) (fun _ => Ex.tapes) (fun _ => Ex.tapes) (fun _ => Ex.tapes)
    (fun _ _ => Ex.wordTape) (fun _ _ => Ex.wordTape) (fun _ _ => Ex.wordTape)
  obtain ⟨psi, hpsi, hc⟩ := c72_circuit h
  obtain ⟨z, pt, out, r1, r2, r3, r4, r5⟩ := hc .debug sk _ _ _ _ (by decide) hk hE (by decide)
    (Circuit.sub (.mul (.input 0) (.input 1)) (.mulPlain (.input 0) [5, 0, 1])) ⟨⟨trivial, trivial⟩, trivial, by norm_num, by decide⟩ (by
      rw [h0, Ex.levelQ_mods0]
      simp only [Circuit.noise, productNoise, freshBounds, show switchNoise 8 Ex.mods 0 = 8 * (1048609 + 1048721 + 1048897) by decide +kernel]
      norm_num)
  exact ⟨E, sk, z, pt, out, psi, h, hk, hpsi, r1, r2, r3, r4, (r5 0 (by norm_num)).2⟩

end OnionPIR
