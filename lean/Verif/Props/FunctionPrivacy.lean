import Verif.Proofs.Weighted
import Verif.Props.Robust
/- Property C103: the noise of an answer depends on rows that were not asked for. -/
namespace OnionPIR
open Rg Poly Spec

variable {N t : Nat} {l : List Nat} {variance : Nat} {P : BfvParameters}

/-- The phase `phi` encodes `m` with exactly the noise `v`: `t phi = Q m + v` modulo `t Q`. -/
def Spec.HasNoise (t Q : Nat) (m phi v : Rg N) : Prop :=
  ∃ w : Rg N, ((t : ℤ) : Rg N) * phi = ((Q : ℤ) : Rg N) * m + v + ((t : ℤ) : Rg N) * (((Q : ℤ) : Rg N) * w)

/-- Ring elements that agree modulo `Q` and are small are equal. -/
theorem FunctionPrivacy.eq_of_dvd (hN : 0 < N) {Q : Nat} {v v' : Rg N} {V : ℤ} (hv : Bdd V v) (hv' : Bdd V v') (hV : 2 * V < Q)
    (hd : ((Q : ℤ) : Rg N) ∣ v - v') : v = v' := by
  refine ext_cf hN fun k hk => ?_
  obtain ⟨z, hz⟩ := hd
  have e : cf v k - cf v' k = Q * cf z k := by rw [← cf_sub hN, hz, cf_int_mul hN]
  have h1 := abs_le.mp (hv k hk)
  have h2 := abs_le.mp (hv' k hk)
  have h3 : (Q : ℤ) ∣ cf v k - cf v' k := ⟨_, e⟩
  have h4 := Int.eq_zero_of_abs_lt_dvd h3 (abs_lt.mpr ⟨by linarith, by linarith⟩)
  linarith

/-- C103: whoever can compute the phase of a ciphertext, that is whoever has the key, knows its noise exactly: it is determined by the phase
if it is below `Q/2`, whatever the message. -/
theorem c103_noise_known (hN : 0 < N) {Q : Nat} {m m' phi phi' v v' : Rg N} {V : ℤ} (hc : Cong Q phi phi') (h : HasNoise t Q m phi v)
    (h' : HasNoise t Q m' phi' v') (hv : Bdd V v) (hv' : Bdd V v') (hV : 2 * V < Q) : v = v' := by
  obtain ⟨w, e⟩ := h
  obtain ⟨w', e'⟩ := h'
  obtain ⟨z, hz⟩ := hc
  exact FunctionPrivacy.eq_of_dvd hN hv hv' hV ⟨((t : ℤ) : Rg N) * z - m + m' - ((t : ℤ) : Rg N) * w + ((t : ℤ) : Rg N) * w', by
    linear_combination ((t : ℤ) : Rg N) * hz - e + e'⟩

/-- The components of a ciphertext are determined modulo `Q`. -/
theorem FunctionPrivacy.phase_cong (h : IsParams N t l variance P) {i : Nat} {ct : BfvCipherText} {f0 f1 g0 g1 : Rg N} (hf : IsCt P i [f0, f1] ct)
    (hg : IsCt P i [g0, g1] ct) (s : Rg N) : Cong (levelQ l i) (phase s [f0, f1]) (phase s [g0, g1]) := by
  obtain ⟨K, ext, rfl, hw, rfl, rfl, -⟩ := BfvP.params h
  obtain ⟨L, hL⟩ := BfvP.isCt_level hw (by simp) hf
  obtain ⟨-, -, x3⟩ := (BfvP.isCt_iff hL _ _).mp hf
  obtain ⟨-, -, y3⟩ := (BfvP.isCt_iff hL _ _).mp hg
  rw [x3] at y3
  simp only [List.map_cons, List.map_nil, List.cons.injEq, and_true] at y3
  rw [enc_eq_iff hL.wf.ctx, enc_eq_iff hL.wf.ctx, BfvP.levelQ_eq hL] at y3
  obtain ⟨⟨a, ha⟩, ⟨b, hb⟩⟩ := y3
  refine ⟨a + s * b, ?_⟩
  simp only [BfvP.phase_two]
  linear_combination ha + s * hb

/-- C103: for a database with one dimension, the answer for the `c`-th block has exactly the noise `Σ v_k · row_k`, where `v_k` is the noise of
the `k`-th selector, over all rows of the block, whether selected or not. The selectors come from the ciphertexts of the client, who therefore
knows all the `v_k`. -/
theorem c103_exact (h : IsParams N t l variance P) (pr : Profile) {s : Rg N} (srv : Server) (hf : 0 < srv.firstDim) (hd : 0 < srv.dim)
    {a : Nat → ℤ} {v : Nat → Rg N} {r : Nat → Rg N}
    (hrow : ∀ k, k < srv.dbScaled.length → ∃ p, srv.dbScaled[k]? = some p ∧ PolyAt P 0 (r k) p)
    (hend : ∀ k, srv.dbScaled.length ≤ k → r k = 0) {cts : List BfvCipherText}
    (hc : ∀ k, k < srv.firstDim → ∃ ct, ∃ f0 f1 : Rg N, cts[k]? = some ct ∧ IsCt P 0 [f0, f1] ct ∧
      HasNoise t (levelQ l 0) ((a k : ℤ) : Rg N) (phase s [f0, f1]) (v k)) :
    ∃ out, srv.select pr P cts [] = .ok out ∧ out.length = (srv.dbScaled.length + srv.firstDim - 1) / srv.firstDim ∧
      ∀ c, c < out.length → ∃ ct, ∃ f0 f1 : Rg N, out[c]? = some ct ∧ IsCt P 0 [f0, f1] ct ∧
        HasNoise t (levelQ l 0) (weigh srv.firstDim a r c) (phase s [f0, f1])
          (∑ k ∈ Finset.range srv.firstDim, v k * r (c * srv.firstDim + k)) := by
  obtain ⟨n, hn⟩ := CeilDiv.exists srv.dbScaled.length hf
  have hcl : srv.firstDim ≤ cts.length := by
    obtain ⟨ct, _, _, hct, -⟩ := hc (srv.firstDim - 1) (by omega)
    have := (List.getElem?_eq_some_iff.mp hct).1
    omega
  have key : ∀ c, c < n → ∃ ct, Server.sumProducts pr P (fun (x : BfvCipherText × Poly) => x.1.mulPoly pr x.2)
      (cts.zip ((srv.dbScaled.drop (c * srv.firstDim)).take srv.firstDim)) = .ok ct ∧ ∃ f0 f1 : Rg N, IsCt P 0 [f0, f1] ct ∧
        HasNoise t (levelQ l 0) (weigh srv.firstDim a r c) (phase s [f0, f1])
          (∑ k ∈ Finset.range srv.firstDim, v k * r (c * srv.firstDim + k)) := by
    intro c hc'
    obtain ⟨l1, l2, l3⟩ := chunk_len_any hn hc'
    have hps : ∀ k, k < srv.firstDim → ((srv.dbScaled.drop (c * srv.firstDim)).take srv.firstDim)[k]? = srv.dbScaled[c * srv.firstDim + k]? :=
      fun k hk => chunk_get _ _ hk
    generalize (srv.dbScaled.drop (c * srv.firstDim)).take srv.firstDim = ps at *
    have hzl : (cts.zip ps).length = ps.length := by rw [List.length_zip]; omega
    have hex : ∀ k, ∃ φ w : Rg N, (ps.length ≤ k → φ = 0) ∧ (k < srv.firstDim → ((t : ℤ) : Rg N) * φ = ((levelQ l 0 : ℤ) : Rg N) * (((a k : ℤ) : Rg N) *
        r (c * srv.firstDim + k)) + v k * r (c * srv.firstDim + k) + ((t : ℤ) : Rg N) * (((levelQ l 0 : ℤ) : Rg N) * w)) ∧
        ∀ x, (cts.zip ps)[k]? = some x → ∃ ct, ∃ r0 r1 : Rg N, x.1.mulPoly pr x.2 = .ok ct ∧ IsCt P 0 [r0, r1] ct ∧
          Cong (levelQ l 0) (phase s [r0, r1]) φ := by
      intro k
      by_cases hk : k < ps.length
      · obtain ⟨ct, f0, f1, hct, c1, w, c2⟩ := hc k (by omega)
        obtain ⟨p, p0, p1⟩ := hrow (c * srv.firstDim + k) ((l3 k (by omega)).mpr hk)
        rw [← hps k (by omega)] at p0
        obtain ⟨z, z1, z2, z3, -⟩ := c34_mul_poly h pr c1 p1 s
        refine ⟨phase s [f0, f1] * r (c * srv.firstDim + k), w * r (c * srv.firstDim + k), fun hle => by omega, fun _ => ?_, fun x hx => ?_⟩
        · linear_combination r (c * srv.firstDim + k) * c2
        · obtain ⟨hx1, hx2⟩ := List.getElem?_zip_eq_some.mp hx
          rw [hct] at hx1
          rw [p0] at hx2
          rw [← Option.some.inj hx1, ← Option.some.inj hx2]
          exact ⟨z, _, _, z1, z2, by rw [z3]; exact Evaluation.cong_refl _⟩
      · refine ⟨0, 0, fun _ => rfl, fun hlt => ?_, fun x hx => ?_⟩
        · rw [hend _ (by have := l3 k hlt; omega)]; ring
        · have := (List.getElem?_eq_some_iff.mp hx).1
          omega
    choose φ w hφ0 hφ hx using hex
    obtain ⟨ct, r0, r1, h1, h2, z, h3⟩ := Server.sumProducts_ok h pr s (xs := cts.zip ps) (by
      intro h0; rw [h0] at hzl; simp at hzl; omega) hx
    refine ⟨ct, h1, r0, r1, h2, (∑ k ∈ Finset.range srv.firstDim, w k) + z, ?_⟩
    rw [hzl, Finset.sum_subset (Finset.range_subset_range.mpr l2) fun k _ hk' => hφ0 k (by simpa using hk')] at h3
    have e : ((t : ℤ) : Rg N) * ∑ k ∈ Finset.range srv.firstDim, φ k = ((levelQ l 0 : ℤ) : Rg N) * weigh srv.firstDim a r c +
        (∑ k ∈ Finset.range srv.firstDim, v k * r (c * srv.firstDim + k)) +
          ((t : ℤ) : Rg N) * (((levelQ l 0 : ℤ) : Rg N) * ∑ k ∈ Finset.range srv.firstDim, w k) := by
      unfold weigh
      simp only [Finset.mul_sum, ← Finset.sum_add_distrib]
      refine Finset.sum_congr rfl fun k hk => ?_
      rw [hφ k (Finset.mem_range.mp hk)]
    linear_combination ((t : ℤ) : Rg N) * h3 + e
  unfold Server.select Server.firstDimension
  rw [chunksR_ok hd (m := 0) (l := ([] : List RgswCt)) (by simp), res_ok_bind, chunksR_any hf hn, res_ok_bind, Server.mapR_map]
  obtain ⟨out, o1, o2, o3⟩ := Server.mapR_range key
  refine ⟨out, ?_, o2.trans hn.eq, fun c hc' => ?_⟩
  · rw [o1, res_ok_bind, List.range_zero, List.map_nil, foldR_nil]
  · obtain ⟨ct, x1, f0, f1, x2, x3⟩ := o3 c (by omega)
    exact ⟨ct, f0, f1, x1, x2, x3⟩

/-- C103: so answers are not independent of the rows that were not asked for. If two databases agree in the selected row and the noise terms
`Σ v_k · row_k` differ, then the answers differ, although both decrypt to the same row; the difference of the noise terms is computable from
the key and the answers. -/
theorem c103_not_private (h : IsParams N t l variance P) (pr : Profile) {s : Rg N} {fd : Nat} {srv srv' : Server} (hd : 0 < srv.dim) (hd' : 0 < srv'.dim)
    (hfd : srv.firstDim = fd) (hfd' : srv'.firstDim = fd) {i : Nat} (hi : i < fd) {v : Nat → Rg N} {r r' : Nat → Rg N}
    (hlen : srv.dbScaled.length = fd) (hlen' : srv'.dbScaled.length = fd)
    (hrow : ∀ k, k < fd → ∃ p, srv.dbScaled[k]? = some p ∧ PolyAt P 0 (r k) p)
    (hrow' : ∀ k, k < fd → ∃ p, srv'.dbScaled[k]? = some p ∧ PolyAt P 0 (r' k) p) (hsame : r i = r' i) {cts : List BfvCipherText}
    (hc : ∀ k, k < fd → ∃ ct, ∃ f0 f1 : Rg N, cts[k]? = some ct ∧ IsCt P 0 [f0, f1] ct ∧
      HasNoise t (levelQ l 0) (bit N k i) (phase s [f0, f1]) (v k)) {V : ℤ} (hV : Bdd V (∑ k ∈ Finset.range fd, v k * r k))
    (hV' : Bdd V (∑ k ∈ Finset.range fd, v k * r' k)) (hQ : 2 * V < levelQ l 0)
    (hne : ∑ k ∈ Finset.range fd, v k * r k ≠ ∑ k ∈ Finset.range fd, v k * r' k) :
    ∃ ct ct', srv.select pr P cts [] = .ok [ct] ∧ srv'.select pr P cts [] = .ok [ct'] ∧ ct ≠ ct' ∧ CtEncodes P l t s (r i) V ct ∧
      CtEncodes P l t s (r i) V ct' := by
  have hN : 0 < N := by
    obtain ⟨K, ext, rfl, -⟩ := BfvP.params h
    positivity
  have main : ∀ (srv : Server) (r : Nat → Rg N), 0 < srv.dim → srv.firstDim = fd → srv.dbScaled.length = fd →
      (∀ k, k < fd → ∃ p, srv.dbScaled[k]? = some p ∧ PolyAt P 0 (r k) p) → ∃ ct, ∃ f0 f1 : Rg N, srv.select pr P cts [] = .ok [ct] ∧
        IsCt P 0 [f0, f1] ct ∧ HasNoise t (levelQ l 0) (r i) (phase s [f0, f1]) (∑ k ∈ Finset.range fd, v k * r k) := by
    intro srv r hd hfd hlen hrow
    subst hfd
    obtain ⟨out, o1, o2, o3⟩ := c103_exact h pr srv (by omega) hd (a := fun k => if k = i then 1 else 0) (v := v)
      (r := fun k => if k < srv.firstDim then r k else 0)
      (fun k hk => by rw [if_pos (by omega)]; exact hrow k (by omega)) (fun k hk => if_neg (by omega)) (cts := cts) (fun k hk => by
        have := hc k hk
        simpa [bit] using this)
    rw [hlen, Nat.div_eq_of_lt_le (k := 1) (by omega) (by omega)] at o2
    obtain ⟨ct, f0, f1, x1, x2, x3⟩ := o3 0 (by omega)
    refine ⟨ct, f0, f1, ?_, x2, ?_⟩
    · rw [o1]
      match out, o2, x1 with
      | [c], _, x1 => rw [show c = ct by simpa using x1]
    · convert x3 using 1
      · unfold weigh
        rw [Finset.sum_eq_single i (fun k _ hk => by simp [hk]) (fun h => absurd (Finset.mem_range.mpr hi) h)]
        simp [hi]
      · refine Finset.sum_congr rfl fun k hk => ?_
        rw [Nat.zero_mul, Nat.zero_add, if_pos (Finset.mem_range.mp hk)]
  obtain ⟨ct, f0, f1, a1, a2, a3⟩ := main srv r hd hfd hlen hrow
  obtain ⟨ct', g0, g1, b1, b2, b3⟩ := main srv' r' hd' hfd' hlen' hrow'
  refine ⟨ct, ct', a1, b1, ?_, ⟨f0, f1, a2, ?_⟩, ⟨g0, g1, b2, ?_⟩⟩
  · rintro rfl
    exact hne (c103_noise_known hN (FunctionPrivacy.phase_cong h a2 b2 s) a3 b3 hV hV' hQ)
  · obtain ⟨w, e⟩ := a3
    exact ⟨_, w, hV, e⟩
  · obtain ⟨w, e⟩ := b3
    rw [hsame]
    exact ⟨_, w, hV', e⟩

/-- Two databases of two rows that differ in the second row: for the same selectors of the first row the answers differ, and both decrypt to
the first row. -/
example : ∃ P sk cts srv srv' ct ct' pt pt', IsParams 8 17 Ex.mods4 10 P ∧ IsKey P sk ∧
    Server.new .release 2 2 [⟨P, 0, .poly, [3, 4]⟩, ⟨P, 0, .poly, [5]⟩] P = .ok srv ∧
    Server.new .release 2 2 [⟨P, 0, .poly, [3, 4]⟩, ⟨P, 0, .poly, [6]⟩] P = .ok srv' ∧
    srv.select .debug P cts [] = .ok [ct] ∧ srv'.select .debug P cts [] = .ok [ct'] ∧ ct ≠ ct' ∧
    sk.decrypt .debug ct = .ok pt ∧ sk.decrypt .debug ct' = .ok pt' ∧ pt.values = [3, 4, 0, 0, 0, 0, 0, 0] ∧ pt'.values = [3, 4, 0, 0, 0, 0, 0, 0] := by
  obtain ⟨P, h⟩ := Ex.exists_params4
  obtain ⟨sk, -, hk, hb⟩ := c30_generate h .release (by norm_num) (by norm_num) Ex.wordTape
  obtain ⟨srv, s1, s2, s3, s4, s5, s6⟩ := c43_new h .release 2 2 (db := [⟨P, 0, .poly, [3, 4]⟩, ⟨P, 0, .poly, [5]⟩]) (by simp) (by simp)
  obtain ⟨srv', s1', s2', s3', s4', s5', s6'⟩ := c43_new h .release 2 2 (db := [⟨P, 0, .poly, [3, 4]⟩, ⟨P, 0, .poly, [6]⟩]) (by simp) (by simp)
  have hQ : levelQ Ex.mods4 0 = 16777441 * 16777601 * 16777633 * 16777681 := by decide +kernel
  generalize hQ' : levelQ Ex.mods4 0 = Q at hQ
  obtain ⟨p0, hp0⟩ := c33_exists_poly h (i := 0) (by decide) ((((Q / 17 : ℕ) : ℤ)) : Rg 8)
  obtain ⟨p1, hp1⟩ := c33_exists_poly h (i := 0) (by decide) (1 : Rg 8)
  obtain ⟨p2, hp2⟩ := c33_exists_poly h (i := 0) (by decide) (0 : Rg 8)
  have hQ17 : (17 : Rg 8) * (((Q / 17 : ℕ) : ℤ) : Rg 8) = ((Q : ℤ) : Rg 8) - ((Q % 17 : ℕ) : ℤ) := by
    have : (17 : ℤ) * ((Q / 17 : ℕ) : ℤ) = Q - ((Q % 17 : ℕ) : ℤ) := by omega
    have := congrArg (fun z : ℤ => (z : Rg 8)) this
    push_cast at this ⊢
    exact this
  have hsm : (Q % 17 : ℕ) ≤ 16 := by omega
  have hbd : ∀ a : Nat, a ≤ 6 → Bdd (1000 : ℤ) (-(((Q % 17 : ℕ) : ℤ) : Rg 8) * msgRing 8 [3, 4] + 17 * msgRing 8 [a]) := by
    intro a ha
    have e : -(((Q % 17 : ℕ) : ℤ) : Rg 8) * msgRing 8 [3, 4] + 17 * msgRing 8 [a] =
        ((-((Q % 17 : ℕ) : ℤ) : ℤ) : Rg 8) * msgRing 8 [3, 4] + ((17 : ℤ) : Rg 8) * msgRing 8 [a] := by push_cast; ring
    rw [e]
    refine Bdd.mono (((BfvP.msgRing_bdd (K := 3) (B := 4) (by simp)).int_mul (by norm_num) _).add (by norm_num)
      ((BfvP.msgRing_bdd (K := 3) (B := 6) (by simpa using ha)).int_mul (by norm_num) _)) ?_
    rw [abs_neg, abs_of_nonneg (by positivity), abs_of_nonneg (by norm_num)]
    have : ((Q % 17 : ℕ) : ℤ) ≤ 16 := by exact_mod_cast hsm
    push_cast at this ⊢
    linarith
  obtain ⟨v, hv⟩ : ∃ v : Nat → Rg 8, v = fun k => if k = 0 then -(((Q % 17 : ℕ) : ℤ) : Rg 8) else 17 := ⟨_, rfl⟩
  obtain ⟨r, hr⟩ : ∃ r : Nat → Nat → Rg 8, r = fun a k => if k = 0 then msgRing 8 [3, 4] else msgRing 8 [a] := ⟨_, rfl⟩
  have v0 : v 0 = -(((Q % 17 : ℕ) : ℤ) : Rg 8) := by rw [hv]; rfl
  have v1 : v 1 = 17 := by rw [hv]; rfl
  have r0 : ∀ a, r a 0 = msgRing 8 [3, 4] := by intro a; rw [hr]; rfl
  have r1 : ∀ a, r a 1 = msgRing 8 [a] := by intro a; rw [hr]; rfl
  have hsum : ∀ a, ∑ k ∈ Finset.range 2, v k * r a k = -(((Q % 17 : ℕ) : ℤ) : Rg 8) * msgRing 8 [3, 4] + 17 * msgRing 8 [a] := by
    intro a
    rw [Finset.sum_range_succ, Finset.sum_range_one, v0, v1, r0, r1]
  have hrow : ∀ k, k < 2 → ∃ p, srv.dbScaled[k]? = some p ∧ PolyAt P 0 (r 5 k) p := by
    intro k hk
    match k, hk with
    | 0, _ => rw [r0]; exact s6 0 ⟨P, 0, .poly, [3, 4]⟩ rfl
    | 1, _ => rw [r1]; exact s6 1 ⟨P, 0, .poly, [5]⟩ rfl
  have hrow' : ∀ k, k < 2 → ∃ p, srv'.dbScaled[k]? = some p ∧ PolyAt P 0 (r 6 k) p := by
    intro k hk
    match k, hk with
    | 0, _ => rw [r0]; exact s6' 0 ⟨P, 0, .poly, [3, 4]⟩ rfl
    | 1, _ => rw [r1]; exact s6' 1 ⟨P, 0, .poly, [6]⟩ rfl
  have hcts : ∀ k, k < 2 → ∃ ct, ∃ f0 f1 : Rg 8, ([⟨P, [p0, p2], 0⟩, ⟨P, [p1, p2], 0⟩] : List BfvCipherText)[k]? = some ct ∧ IsCt P 0 [f0, f1] ct ∧
      HasNoise 17 (levelQ Ex.mods4 0) (bit 8 k 0) (phase (keyRing 8 sk) [f0, f1]) (v k) := by
    intro k hk
    rw [hQ']
    match k, hk with
    | 0, _ =>
      refine ⟨_, _, _, rfl, ⟨rfl, rfl, .cons hp0 (.cons hp2 .nil)⟩, 0, ?_⟩
      rw [v0]
      simp only [phase, bit, if_true]
      push_cast at hQ17 ⊢
      linear_combination hQ17
    | 1, _ =>
      refine ⟨_, _, _, rfl, ⟨rfl, rfl, .cons hp1 (.cons hp2 .nil)⟩, 0, ?_⟩
      rw [v1]
      simp only [phase, bit, one_ne_zero, if_false]
      push_cast
      ring
  have hne : ∑ k ∈ Finset.range 2, v k * r 5 k ≠ ∑ k ∈ Finset.range 2, v k * r 6 k := by
    rw [hsum, hsum]
    intro e
    have e1 := congrArg (fun z : Rg 8 => cf z 0) (add_left_cancel e)
    have e2 : ∀ a : Nat, cf ((17 : Rg 8) * msgRing 8 [a]) 0 = 17 * a := by
      intro a
      have : (17 : Rg 8) = ((17 : ℤ) : Rg 8) := by norm_num
      rw [this, cf_int_mul (by norm_num)]
      unfold msgRing
      rw [cf_ofCoeffs (by norm_num) _ (by norm_num)]
      simp
    rw [e2, e2] at e1
    norm_num at e1
  have hres : residues 17 (r 5 0) = [3, 4, 0, 0, 0, 0, 0, 0] := by
    rw [r0]
    exact residues_msgRing (K := 3) 17 [3, 4]
  obtain ⟨ct, ct', a1, a2, a3, ⟨f0, f1, a4, a5⟩, ⟨g0, g1, a6, a7⟩⟩ := c103_not_private h .debug (s := keyRing 8 sk) (fd := 2) (srv := srv)
    (srv' := srv') (by omega) (by omega) s2 s2' (i := 0) (by norm_num) (v := v) (r := r 5) (r' := r 6) s5 s5' hrow hrow' (by rw [r0, r0]) hcts
    (V := 1000) (by rw [hsum]; exact hbd 5 (by norm_num)) (by rw [hsum]; exact hbd 6 (by norm_num)) (by rw [hQ', hQ]; norm_num) hne
  obtain ⟨pt, x1, -, -, x4⟩ := c30_decrypt h hk .debug (by simp) a4 (by decide) a5 (by rw [hQ', hQ]; norm_num)
  obtain ⟨pt', y1, -, -, y4⟩ := c30_decrypt h hk .debug (by simp) a6 (by decide) a7 (by rw [hQ', hQ]; norm_num)
  exact ⟨P, sk, _, srv, srv', ct, ct', pt, pt', h, hk, s1, s1', a1, a2, a3, x1, y1, x4.trans hres, y4.trans hres⟩

end OnionPIR
