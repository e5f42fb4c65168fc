import Verif.Props.AnyEntries
import Verif.Props.Sizes
import Verif.Props.Switch

/-! C108: an answer can be sent at a smaller level. The code has `mod_switch_to` for polynomials (rq.rs:427-433) but `decode` returns its answer at
level 0. -/

namespace OnionPIR

open Rg Poly Spec

variable {N t variance : Nat} {l : List Nat} {P : BfvParameters}

/-- C108: the answer of the corrected `decode` of C80, switched down to level `j`, has `L - j` of the `L` rows of every component and still
decrypts to the row asked for. The noise of the answer is divided by the product of the dropped moduli; what remains, with the rounding
noise, has to be below a quarter of the modulus of level `j`. -/
theorem c108_answer (h : IsParams N t l variance P) {sk : SecretKey} (hk : IsKey P sk) (pr ps pd : Profile) (hv1 : 1 ≤ variance)
    (hv2 : variance ≤ 16) (hl : l.length ≠ 1) (hN : N ≤ 2 ^ 31) {S : ℤ} (hS : Bdd S (keyRing N sk))
    -- evaluation keys
    {aTape : Nat → Nat → Nat → Nat → Nat} (ha : ∀ k j, TapeAt l 0 (aTape k j))
    {rng : Nat → Nat → Nat → Nat} (hr : ∀ k j i, rng k j i < 2 ^ 64) {a0 a1 : Nat → Nat → Nat → Nat} (ha0 : ∀ j, TapeAt l 0 (a0 j))
    (ha1 : ∀ j, TapeAt l 0 (a1 j)) {r0 r1 : Nat → Nat → Nat} (hr0 : ∀ j i, r0 j i < 2 ^ 64) (hr1 : ∀ j i, r1 j i < 2 ^ 64)
    {ev : Evaluation} {pr1 : Profile} (hev : Evaluation.build pr1 sk P aTape rng a0 a1 r0 r1 = .ok ev)
    -- database
    {fd dim : Nat} {db : List Plaintext} (hdb : ∀ p ∈ db, p.values.length ≤ N) {T : Nat} (hT : T < 2 ^ 64)
    (hv : ∀ p ∈ db, ∀ a ∈ p.values, a ≤ T) {srv : Server}
    {pr2 : Profile} (hsrv : Server.new pr2 fd dim db P = .ok srv)
    -- query
    {i0 : Nat} {is : List Nat} (hd : 2 ≤ dim) (hrows : db.length = fd * dim ^ is.length) (hfit : fd + dim * is.length ≤ N) (hmem : db.length < 2 ^ 64) {v : List Nat} {pr3 : Profile}
    (hv' : (Client.mk fd dim).encode pr3 (i0 :: is) db.length = .ok v) {q0 : BfvCipherText} {qs : List BfvCipherText}
    (hq : IsQuery N P l sk fd v q0 qs)
    -- noise
    (h2t : 2 * t ≤ l.getD 0 0)
    {j : Nat} (hj : j < l.length)
    (hnoise : 4 * (answerNoise N t l fd dim is.length (2 * t * variance + 2 * t) (2 * variance) T S (switchNoise N l 0 * (2 * variance))
      (2 * variance) (2 * variance) / (missing l 0 j : ℤ) + t * roundingNoise N S 2) ≤ levelQ l j) :
    ∃ ct ct' pt row, db[i0 + fd * address dim is]? = some row ∧ Repair.decode pr srv (q0 :: qs) ev P = .ok [ct] ∧
      ctWords ct = 2 * (l.length * N) ∧ switchCt ps ct j = .ok ct' ∧ ShapedCt P j 2 ct' ∧ ctWords ct' = 2 * ((l.length - j) * N) ∧
      sk.decrypt pd ct' = .ok pt ∧ pt.level = j ∧ pt.values = (List.range N).map fun k => row.values.getD k 0 % t := by
  have hfd : 0 < fd := by
    rcases Nat.eq_zero_or_pos fd with rfl | hf
    · unfold Client.encode at hv'
      obtain ⟨a, e1, hv'⟩ := bind_eq_ok.mp hv'
      obtain ⟨u, e2, -⟩ := bind_eq_ok.mp hv'
      obtain rfl := Except.ok.inj e1
      rw [rassert_fail (by simp)] at e2
      cases e2
    · exact hf
  have hpow : dim ^ is.length < 2 ^ 64 := by
    refine lt_of_le_of_lt ?_ hmem
    rw [hrows]
    exact Nat.le_mul_of_pos_left _ hfd
  obtain ⟨srv', s1, s2, s3, s4, -⟩ := c43_new h pr2 fd dim hdb (fun p hp x hx => (hv p hp x hx).trans_lt hT)
  obtain rfl := Except.ok.inj (hsrv.symm.trans s1)
  have hlen : is.length < 2 ^ 32 := by
    have : is.length ≤ dim * is.length := Nat.le_mul_of_pos_left _ (by omega)
    omega
  obtain ⟨h0, his, -, -⟩ := (c42_accepts_partial pr3 (Client.mk fd dim) hpow hlen db.length).mp ⟨v, hv'⟩
  dsimp only at h0 his
  obtain ⟨v', v1, v2, v3, v4⟩ := c42_encode pr3 (Client.mk fd dim) h0 his hpow hlen hrows
  obtain rfl := Except.ok.inj (hv'.symm.trans v1)
  have hvb := Client.bits (by dsimp only; omega) v2 v3 v4
  obtain ⟨xs, hx, hu⟩ := Repair.unpack_eq h pr
  have hdim := c80_dimensions pr srv (by rw [s2]; exact hfd) (by rw [s3]; exact hd) (k := is.length) (by rw [s2, s3, s4, hrows]) (by rw [s4]; exact hmem)
  have hlev := hq.level h hk hv1 hv2 (by dsimp only at v2; omega) hvb
  unfold Repair.decode
  rw [Repair.decodeBy_congr pr _ srv (fun ct hct => hu ev ct (hlev ct hct).1 (hlev ct hct).2) ev P]
  have hent : ∀ k j, ((db.map (·.values)).getD k []).getD j 0 ≤ T := by
    intro k j
    by_cases hlt : k < db.length
    · have e : (db.map (·.values)).getD k [] = db[k].values := by simp [hlt]
      rw [e]
      by_cases hj : j < db[k].values.length
      · rw [List.getD_eq_getElem _ _ hj]
        exact hv _ (List.getElem_mem hlt) _ (List.getElem_mem hj)
      · rw [List.getD_eq_default _ _ (by omega)]; exact Nat.zero_le _
    · rw [List.getD_eq_default (l := db.map _) _ (by rw [List.length_map]; omega)]
      simp
  obtain ⟨x1, cts, x2, x3, x4⟩ := Server.answer_encodes h hk pr hv1 hv2 hl hN hS ha hr ha0 ha1 hr0 hr1 hev hx hdb
    (fun p hp a ha => (hv p hp a ha).trans_lt hT) (b := fun k j => ((((db.map (·.values)).getD k []).getD j 0 : Nat) : ℤ)) (T := T)
    (fun _ _ _ _ => Int.ModEq.refl _)
    (fun k j => by
      rw [abs_of_nonneg (by positivity)]
      have := hent k j
      omega)
    (fun k j hk => by
      rw [List.getD_eq_default (l := db.map _) _ (by rw [List.length_map]; exact hk)]
      simp) hsrv (by omega) hfit hpow hv' hq hdim
  rw [if_pos hrows] at x3
  match cts, x3, x2, x4 with
  | [ct], _, x2, x4 =>
    obtain ⟨f0, f1, y1, y2⟩ := x4 0 ct rfl
    obtain ⟨ct', fs', z1, z2, z3, z4⟩ := c61_switch h ps (Nat.zero_le j) hj y1
    obtain ⟨pt, p1, -, p2, p3⟩ := c30_decrypt h hk pd (fs := fs') (by rintro rfl; simp at z3) z2 h2t (z4 _ _ S _ hS y2) hnoise
    have hsh : ShapedCt P j 2 ct' := by
      have := Shape.of_isCt h z2
      rwa [z3] at this
    refine ⟨ct, ct', pt, db[i0 + fd * address dim is], List.getElem?_eq_getElem x1, x2,
      c104_ciphertext h (Shape.of_isCt h y1), z1, hsh, c104_ciphertext h hsh, p1, p2, ?_⟩
    rw [p3]
    unfold residues
    refine List.map_congr_left fun k hk => ?_
    have hpos : 0 < N := by
      obtain ⟨K, -, rfl, -⟩ := BfvP.params h
      positivity
    rw [cf_ofCoeffs hpos _ (List.mem_range.mp hk), Nat.mul_zero, Nat.add_zero,
      List.getD_eq_getElem (l := db.map _) _ (by rw [List.length_map]; exact x1), List.getElem_map, ← Int.natCast_mod, Int.toNat_natCast]

/-- Four rows; the answer at level 3 is one quarter of the answer at level 0 and decrypts to the row. -/
example : ∃ P sk ev srv v q0 qs ct ct' pt, IsParams 8 17 Ex.mods4 10 P ∧ IsKey P sk ∧ Server.new .release 2 2 (Ex.rows4 P) P = .ok srv ∧
    (Client.mk 2 2).encode .release [0, 1] 4 = .ok v ∧ IsQuery 8 P Ex.mods4 sk 2 v q0 qs ∧
    Repair.decode .debug srv (q0 :: qs) ev P = .ok [ct] ∧ ctWords ct = 64 ∧ switchCt .debug ct 3 = .ok ct' ∧ ctWords ct' = 16 ∧
    sk.decrypt .debug ct' = .ok pt ∧ pt.values = [5, 6, 7, 0, 0, 0, 0, 0] := by
  obtain ⟨P, h⟩ := Ex.exists_params4
  obtain ⟨sk, -, hk, hb⟩ := c30_generate h .release (by norm_num) (by norm_num) Ex.wordTape
  have ht : TapeAt Ex.mods4 0 fun _ _ => 0 := Ex.tape0 Ex.mods4_gt
  obtain ⟨ev, h1, h2⟩ := c41_build h hk .release (by norm_num) (by norm_num) (by decide) (by norm_num) (aTape := fun _ _ _ _ => 0)
    (fun _ _ => ht) (rng := fun _ _ i => i % 1000) (fun _ _ => Ex.wordTape) (a0 := fun _ _ _ => 0)
    (fun _ => ht) (a1 := fun _ _ _ => 0) (fun _ => ht) (r0 := fun _ i => i % 1000) (fun _ => Ex.wordTape)
    (r1 := fun _ i => i % 1000) (fun _ => Ex.wordTape)
  have hlen : ∀ p ∈ Ex.rows4 P, p.values.length ≤ 8 := by simp [Ex.rows4]
  have hval : ∀ p ∈ Ex.rows4 P, ∀ a ∈ p.values, a ≤ 16 := by simp [Ex.rows4]
  obtain ⟨srv, s1, -⟩ := c43_new h .release 2 2 (db := Ex.rows4 P) hlen (fun p hp a ha => (hval p hp a ha).trans_lt (by norm_num))
  have hv : (Client.mk 2 2).encode .release [0, 1] 4 = .ok [1, 0, 0, 1] := by decide +kernel
  obtain ⟨q0, qs, hq⟩ := c44_query h hk (by norm_num) (by norm_num) (v := [1, 0, 0, 1]) (by norm_num) (by simp) 2
  have hq1 : switchNoise 8 Ex.mods4 0 = 8 * (16777441 + 16777601 + 16777633 + 16777681) := by decide +kernel
  obtain ⟨ct, ct', pt, row, r1, r2, r2', r3, -, r4, r5, -, r6⟩ := c108_answer h hk .debug .debug .debug (by norm_num) (by norm_num) (by decide) (by norm_num) hb (fun _ _ => ht)
    (fun _ _ => Ex.wordTape) (fun _ => ht) (fun _ => ht) (fun _ => Ex.wordTape) (fun _ => Ex.wordTape) h1 hlen (T := 16) (by norm_num)
    hval s1 (i0 := 0) (is := [1]) (by norm_num) rfl (by norm_num) (show 4 < 2 ^ 64 by norm_num) hv hq (by decide) (j := 3) (by decide) (by
      unfold answerNoise
      rw [hq1, show levelQ Ex.mods4 3 = 16777441 by decide +kernel, show missing Ex.mods4 0 3 = 16777601 * 16777633 * 16777681 by decide +kernel]
      norm_num [roundingNoise])
  exact ⟨P, sk, ev, srv, _, q0, qs, ct, ct', pt, h, hk, s1, hv, hq, r2, r2', r3, r4, r5, by
    obtain rfl : ⟨P, 0, .poly, [5, 6, 7]⟩ = row := Option.some.inj r1
    exact r6.trans (show (List.range 8).map (fun k => [5, 6, 7].getD k 0 % 17) = _ by decide)⟩

end OnionPIR
