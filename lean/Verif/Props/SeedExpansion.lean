import Verif.Proofs.Seed
import Verif.Proofs.Sha
import Verif.Props.Random
/-
C96: the masks are expanded from 32 bytes by SHA-256 and ChaCha8.
-/
namespace OnionPIR
open Rg Poly Spec
variable {N t : Nat} {l : List Nat} {variance : Nat} {P : BfvParameters}

namespace ShaP

theorem root_unique {P x y k : Nat} (hk : k ≠ 0) (h1 : x ^ k ≤ P) (h2 : P < (x + 1) ^ k) (h3 : y ^ k ≤ P) (h4 : P < (y + 1) ^ k) : x = y := by
  have a := lt_of_pow_lt_pow_left₀ k (Nat.zero_le _) (lt_of_le_of_lt h1 h4)
  have b := lt_of_pow_lt_pow_left₀ k (Nat.zero_le _) (lt_of_le_of_lt h3 h2)
  omega

theorem cube_unique {p : Nat} {x y : BitVec 32} (hx : Fips180.CubeRootBits p x) (hy : Fips180.CubeRootBits p y) : x = y := by
  obtain ⟨c, h1, h2⟩ := hx
  obtain ⟨d, h3, h4⟩ := hy
  have := root_unique (by norm_num) h1 h2 h3 h4
  have h5 := x.isLt
  have h6 := y.isLt
  exact BitVec.eq_of_toNat_eq (by omega)

theorem square_unique {p : Nat} {x y : BitVec 32} (hx : Fips180.SquareRootBits p x) (hy : Fips180.SquareRootBits p y) : x = y := by
  obtain ⟨c, h1, h2⟩ := hx
  obtain ⟨d, h3, h4⟩ := hy
  have := root_unique (by norm_num) h1 h2 h3 h4
  have h5 := x.isLt
  have h6 := y.isLt
  exact BitVec.eq_of_toNat_eq (by omega)

theorem after_congr {K K' M : Nat → BitVec 32} {s : Fips180.State} {n : Nat} (h : ∀ t < n, K t = K' t) :
    Fips180.after K M s n = Fips180.after K' M s n := by
  induction n with
  | zero => rfl
  | succ n ih => simp only [Fips180.after, ih (fun t ht => h t (by omega)), h n (by omega)]

theorem chain_congr {K K' M : Nat → BitVec 32} {s : Fips180.State} (h : ∀ t < 64, K t = K' t) (n : Nat) :
    Fips180.chain K s M n = Fips180.chain K' s M n := by
  induction n with
  | zero => rfl
  | succ n ih => simp only [Fips180.chain, Fips180.compress, ih, after_congr h]

end ShaP

/-- C96: the modelled hash function is SHA-256 of FIPS 180-4, on all messages of bytes that the standard admits. -/
theorem c96_sha256 {msg : List Nat} (hb : ∀ x ∈ msg, x < 256) (h : 8 * msg.length < 2 ^ 64) (d : List Nat) :
    Fips180.IsSha256 msg d ↔ d = Sha256.hash msg := by
  constructor
  · rintro ⟨K, H, padded, hc, ⟨z, h1, h2, h3⟩, rfl⟩
    rw [ShaP.hash_eq ShaP.roundConstants_eq ShaP.init_eq hb h]
    have hH : H = ShaP.H := by
      obtain ⟨-, a1, a2, a3, a4, a5, a6, a7, a8⟩ := hc
      obtain ⟨-, b1, b2, b3, b4, b5, b6, b7, b8⟩ := ShaP.constants
      have e1 := ShaP.square_unique a1 b1
      have e2 := ShaP.square_unique a2 b2
      have e3 := ShaP.square_unique a3 b3
      have e4 := ShaP.square_unique a4 b4
      have e5 := ShaP.square_unique a5 b5
      have e6 := ShaP.square_unique a6 b6
      have e7 := ShaP.square_unique a7 b7
      have e8 := ShaP.square_unique a8 b8
      cases H
      simp only at e1 e2 e3 e4 e5 e6 e7 e8
      rw [e1, e2, e3, e4, e5, e6, e7, e8]
    obtain ⟨z', h4, h5, h6⟩ := ShaP.padded h
    have hz : z = z' := by
      have l1 : padded.length = msg.length + z + 9 := by
        rw [h3]; simp [Fips180.bigEndian]; omega
      have l2 : (msg ++ Sha256.padding msg.length).length = msg.length + z' + 9 := by
        rw [h6]; simp [Fips180.bigEndian]; omega
      omega
    rw [h6, h3, hz, hH, ShaP.chain_congr (K' := ShaP.K) fun t ht => ShaP.cube_unique (hc.round t ht) (ShaP.constants.round t ht)]
  · rintro rfl
    exact ⟨ShaP.K, ShaP.H, _, ShaP.constants, ShaP.padded h, ShaP.hash_eq ShaP.roundConstants_eq ShaP.init_eq hb h⟩

/-- The test vectors of FIPS 180 for `abc`, the empty message and a message of two blocks, and the hash of 32 zero bytes. -/
example : Sha256.hash [0x61, 0x62, 0x63] = [0xba, 0x78, 0x16, 0xbf, 0x8f, 0x01, 0xcf, 0xea, 0x41, 0x41, 0x40, 0xde, 0x5d, 0xae, 0x22, 0x23,
      0xb0, 0x03, 0x61, 0xa3, 0x96, 0x17, 0x7a, 0x9c, 0xb4, 0x10, 0xff, 0x61, 0xf2, 0x00, 0x15, 0xad] ∧
    Sha256.hash [] = [0xe3, 0xb0, 0xc4, 0x42, 0x98, 0xfc, 0x1c, 0x14, 0x9a, 0xfb, 0xf4, 0xc8, 0x99, 0x6f, 0xb9, 0x24,
      0x27, 0xae, 0x41, 0xe4, 0x64, 0x9b, 0x93, 0x4c, 0xa4, 0x95, 0x99, 0x1b, 0x78, 0x52, 0xb8, 0x55] ∧
    Sha256.hash ("abcdbcdecdefdefgefghfghighijhijkijkljklmklmnlmnomnopnopq".toList.map Char.toNat) =
      [0x24, 0x8d, 0x6a, 0x61, 0xd2, 0x06, 0x38, 0xb8, 0xe5, 0xc0, 0x26, 0x93, 0x0c, 0x3e, 0x60, 0x39,
      0xa3, 0x3c, 0xe4, 0x59, 0x64, 0xff, 0x21, 0x67, 0xf6, 0xec, 0xed, 0xd4, 0x19, 0xdb, 0x06, 0xc1] ∧
    Fips180.IsSha256 (List.replicate 32 0) [0x66, 0x68, 0x7a, 0xad, 0xf8, 0x62, 0xbd, 0x77, 0x6c, 0x8f, 0xc1, 0x8b, 0x8e, 0x9f, 0x8e, 0x20,
      0x08, 0x97, 0x14, 0x85, 0x6e, 0xe2, 0x33, 0xb3, 0x90, 0x2a, 0x59, 0x1d, 0x0d, 0x5f, 0x29, 0x25] := by
  refine ⟨by decide +kernel, by decide +kernel, by decide +kernel, (c96_sha256 (by decide) (by decide) _).mpr (by decide +kernel)⟩

/-- C96: the words of `ChaCha8Rng::from_seed` are the key stream of ChaCha with 8 rounds, key the seed and nonce zero. -/
theorem c96_key_stream {seed : List Nat} (hl : seed.length = 32) (hb : ∀ x ∈ seed, x < 256) {blocks : Nat} (hn : blocks ≤ 2 ^ 64) :
    ChaCha8.fromSeed seed blocks = (List.range (8 * blocks)).map (ChaCha.keyStream64 seed) := by
  unfold ChaCha8.fromSeed ChaCha8.words
  induction blocks with
  | zero => rfl
  | succ n ih =>
    rw [List.range_succ, List.flatMap_append, ih (by omega), Nat.mul_add, List.range_add, List.map_append, List.flatMap_singleton, ChaChaP.block_eq hl hb (by omega)]
    congr 1
    have hp : ∀ x y : BitVec 32, y.toNat <<< 32 ||| x.toNat = x.toNat + 2 ^ 32 * y.toNat := fun x y => by
      rw [ShaP.or_shift x.isLt]; ring
    have hk : ∀ i < 8, ChaCha.keyStream64 seed (8 * n + i) = (ChaCha.keyStream seed n (2 * i)).toNat + 2 ^ 32 * (ChaCha.keyStream seed n (2 * i + 1)).toNat := by
      intro i hi
      unfold ChaCha.keyStream64
      rw [show (8 * n + i) / 8 = n by omega, show (8 * n + i) % 8 = i by omega]
    rw [List.map_map]
    simp only [List.range_succ, List.range_zero, List.nil_append, List.cons_append, List.map_cons, List.map_nil, ChaCha8.pairs, hp, Nat.mul_one, Function.comp_apply]
    rw [hk 0 (by norm_num), hk 1 (by norm_num), hk 2 (by norm_num), hk 3 (by norm_num), hk 4 (by norm_num), hk 5 (by norm_num), hk 6 (by norm_num), hk 7 (by norm_num)]

/-- The published first words of the key stream for the zero key. -/
example : (ChaCha8.fromSeed (List.replicate 32 0) 2).take 2 = [0xd6405f892fef003e, 0xa1a5091fe8b85b7f] ∧
    ChaCha.keyStream64 (List.replicate 32 0) 1 = 0xa1a5091fe8b85b7f := by
  have h := c96_key_stream (seed := List.replicate 32 0) (by decide) (by decide) (blocks := 2) (by norm_num)
  have h1 : (ChaCha8.fromSeed (List.replicate 32 0) 2).take 2 = [0xd6405f892fef003e, 0xa1a5091fe8b85b7f] := by decide +kernel
  refine ⟨h1, ?_⟩
  rw [h] at h1
  have h2 : ((List.range (8 * 2)).map (ChaCha.keyStream64 (List.replicate 32 0))).take 2 =
    [ChaCha.keyStream64 (List.replicate 32 0) 0, ChaCha.keyStream64 (List.replicate 32 0) 1] := rfl
  rw [h2] at h1
  simp only [List.cons.injEq] at h1
  exact h1.2.1

namespace SeedP

/-- The result does not depend on the number of blocks. -/
theorem blocks_irrelevant {c : RqContext} (hc : IsContext N l c) (rep : Representation) (seed : List Nat) {a b : Nat} {p q : Poly}
    (h1 : Poly.randomFromBytes c rep seed a = .ok p) (h2 : Poly.randomFromBytes c rep seed b = .ok q) : p = q := by
  have hf := (c88_poly hc rep).1
  have key : ∀ {a b : Nat} {p q : Poly}, a ≤ b → Poly.randomFromBytes c rep seed a = .ok p → Poly.randomFromBytes c rep seed b = .ok q → p = q := by
    intro a b p q hab h1 h2
    obtain ⟨⟨p', r⟩, h3, h4⟩ := bind_eq_ok.mp h1
    obtain ⟨⟨q', r'⟩, h5, h6⟩ := bind_eq_ok.mp h2
    cases h4
    cases h6
    obtain ⟨ws, hws⟩ := ChaCha8.words_prefix (ChaCha8.wordsLE (Sha256.hash seed)) hab
    obtain ⟨-, used, hu, hr⟩ := hf.reads _ _ _ (ChaCha8.words_lt _ _) h3
    unfold ChaCha8.fromSeed at h5
    rw [hws, hu, List.append_assoc, hr] at h5
    cases h5
    rfl
  rcases Nat.le_total a b with h | h
  · exact key h h1 h2
  · exact (key h h2 h1).symm

/-- The rows drawn for the moduli `ms` and the degree `n`. -/
def rows (seed ms : List Nat) (n blocks : Nat) : Res (List (List Nat) × List Nat) :=
  Rand.each (fun q => Rand.times (Rand.uniform q) n) ms (ChaCha8.fromSeed (Sha256.hash seed) blocks)

theorem rows_eq {c : RqContext} (hc : IsContext N l c) (rep : Representation) (seed : List Nat) (blocks : Nat) :
    Poly.randomFromBytes c rep seed blocks = (do let x ← rows seed l N blocks; .ok ⟨c, rep, x.1⟩) := by
  obtain ⟨K, rfl, hw, rfl⟩ := RqP.ctx hc
  have hm : c.moduli64 = c.moduli.map Modulus.p := by rw [hw.core.m64, hw.core.mods, hw.core.rns.ps]
  unfold Poly.randomFromBytes Poly.randomWords rows
  rw [RandP.each_congr (g := fun q => Rand.times (Rand.uniform q) (2 ^ K)) (h := Modulus.p) (fun q hq => by
    funext ws
    unfold Modulus.randomVec
    rw [rassert_ok (hw.core.mod_wf hq).pos, res_ok_bind, hw.core.deg]), ← hm]
  cases Rand.each (fun q => Rand.times (Rand.uniform q) (2 ^ K)) c.moduli64 (ChaCha8.fromSeed (Sha256.hash seed) blocks) <;> rfl

open Classical in
/-- The values that the expansion gives, zero where no number of blocks suffices. -/
noncomputable def expand (seed ms : List Nat) (n i j : Nat) : Nat :=
  if h : ∃ x blocks, rows seed ms n blocks = .ok x then (h.choose.1.getD i []).getD j 0 % ms.getD i 1 else 0

theorem moduli_pos {c : RqContext} (hc : IsContext N l c) {i : Nat} (hi : i < l.length) : 0 < l.getD i 1 := by
  obtain ⟨K, rfl, hw, rfl⟩ := RqP.ctx hc
  have hm : c.moduli64 = c.moduli.map Modulus.p := by rw [hw.core.m64, hw.core.mods, hw.core.rns.ps]
  rw [List.getD_eq_getElem _ _ hi]
  have h1 := List.getElem_mem hi
  conv at h1 => lhs; rw [hm]
  obtain ⟨q, hq, he⟩ := List.mem_map.mp h1
  rw [← he]
  exact (hw.core.mod_wf hq).pos

/-- A function of the lists of `k` numbers below `b` has at most `b^k` values. -/
theorem card_image {α : Type} (k b : Nat) {R : List Nat → α → Prop} (hR : ∀ s x y, R s x → R s y → x = y) :
    {x | ∃ s, s.length = k ∧ (∀ v ∈ s, v < b) ∧ R s x}.Finite ∧ {x | ∃ s, s.length = k ∧ (∀ v ∈ s, v < b) ∧ R s x}.ncard ≤ b ^ k := by
  classical
  set T : Set (List Nat) := Set.range fun v : Fin k → Fin b => List.ofFn fun i => (v i).val with hT
  have hTf : T.Finite := Set.finite_range _
  have hTc : T.ncard ≤ b ^ k := by
    rw [hT, ← Set.image_univ]
    refine (Set.ncard_image_le Set.finite_univ).trans ?_
    rw [Set.ncard_univ, Nat.card_eq_fintype_card]
    simp
  have hmem : ∀ s : List Nat, s.length = k → (∀ v ∈ s, v < b) → s ∈ T := by
    intro s h1 h2
    refine ⟨fun i => ⟨s.getD i 0, by rw [List.getD_eq_getElem _ _ (by omega)]; exact h2 _ (List.getElem_mem _)⟩, ?_⟩
    refine List.ext_getElem (by simp [h1]) fun i hi hi' => ?_
    rw [List.getElem_ofFn]
    exact List.getD_eq_getElem _ _ hi'
  let f : α → List Nat := fun x => if h : ∃ s, s.length = k ∧ (∀ v ∈ s, v < b) ∧ R s x then h.choose else []
  have hf : ∀ x, (∃ s, s.length = k ∧ (∀ v ∈ s, v < b) ∧ R s x) → f x ∈ T ∧ R (f x) x := by
    intro x hx
    have e : f x = hx.choose := dif_pos hx
    obtain ⟨h1, h2, h3⟩ := hx.choose_spec
    rw [e]
    exact ⟨hmem _ h1 h2, h3⟩
  have hinj : Set.InjOn f {x | ∃ s, s.length = k ∧ (∀ v ∈ s, v < b) ∧ R s x} := fun x hx y hy hxy =>
    hR (f x) x y (hf x hx).2 (hxy ▸ (hf y hy).2)
  exact ⟨Set.Finite.of_injOn (fun x hx => (hf x hx).1) hinj hTf,
    (Set.ncard_le_ncard_of_injOn f (fun x hx => (hf x hx).1) hinj hTf).trans hTc⟩

theorem total {c : RqContext} (hc : IsContext N l c) (rep : Representation) (seed : List Nat) (blocks : Nat) :
    Poly.randomFromBytes c rep seed blocks = .error .diverge ∨ ∃ p tape, Poly.randomFromBytes c rep seed blocks = .ok p ∧
      (∀ i j, i < l.length → tape i j < l.getD i 1) ∧ p = Poly.random c tape rep := by
  unfold Poly.randomFromBytes
  obtain ⟨hf, ht⟩ := c88_poly hc rep
  cases hx : Poly.randomWords c rep (ChaCha8.fromSeed (Sha256.hash seed) blocks) with
  | error e => exact Or.inl (by rw [hf.total _ _ (ChaCha8.words_lt _ _) hx]; rfl)
  | ok x =>
    obtain ⟨tape, h1, h2⟩ := ht _ _ _ (ChaCha8.words_lt _ _) hx
    exact Or.inr ⟨x.1, tape, rfl, h1, h2⟩

end SeedP

/-- C96: `random_from_seed` is a function of the seed, the moduli and the degree: SHA-256, the ChaCha8 key stream and rejection sampling give, as soon
as enough blocks are read, the modelled expansion for one function `expand`, whatever the number of blocks. -/
theorem c96_expand : ∃ expand : List Nat → List Nat → Nat → Nat → Nat → Nat,
    (∀ seed ms n i j, 0 < ms.getD i 1 → expand seed ms n i j < ms.getD i 1) ∧
    ∀ {N : Nat} {l : List Nat} {c : RqContext}, IsContext N l c → ∀ (rep : Representation) (seed : List Nat) (blocks : Nat),
      Poly.randomFromBytes c rep seed blocks = .error .diverge ∨
      Poly.randomFromBytes c rep seed blocks = .ok (Poly.randomFromSeed c expand rep seed) := by
  refine ⟨SeedP.expand, fun seed ms n i j hp => ?_, fun {N l c} hc rep seed blocks => ?_⟩
  · unfold SeedP.expand
    split
    · exact Nat.mod_lt _ hp
    · exact hp
  rcases SeedP.total hc rep seed blocks with h | ⟨p, tape, h1, h2, h3⟩
  · exact Or.inl h
  refine Or.inr ?_
  rw [h1]
  have he : ∃ x blocks, SeedP.rows seed l N blocks = .ok x := by
    rw [SeedP.rows_eq hc] at h1
    obtain ⟨x, hx, -⟩ := bind_eq_ok.mp h1
    exact ⟨x, blocks, hx⟩
  have hr : he.choose.1 = p.coefficients := by
    obtain ⟨b, hb⟩ := he.choose_spec
    have := SeedP.rows_eq hc rep seed b
    rw [hb, res_ok_bind] at this
    rw [← SeedP.blocks_irrelevant hc rep seed this h1]
  obtain ⟨K, rfl, hw, rfl⟩ := RqP.ctx hc
  have hlen : c.moduli.length = c.moduli64.length := by rw [hw.core.m64, hw.core.mods, ← hw.core.rns.ps, List.length_map]
  rw [h3] at hr ⊢
  unfold Poly.randomFromSeed Poly.random at *
  congr 2
  refine List.map_congr_left fun i hi => List.map_congr_left fun j hj => ?_
  rw [List.mem_range] at hi hj
  rw [hw.core.deg] at hj ⊢
  unfold SeedP.expand
  rw [dif_pos he, hr]
  simp only [hw.core.deg]
  have e1 : ((List.range c.moduli.length).map fun i => (List.range (2 ^ K)).map fun j => tape i j).getD i [] = (List.range (2 ^ K)).map fun j => tape i j := by
    simp [List.getD, hi]
  have e2 : ((List.range (2 ^ K)).map fun j => tape i j).getD j 0 = tape i j := by
    simp [List.getD, hj]
  rw [e1, e2, Nat.mod_eq_of_lt (h2 i j (by omega))]

/-- The expansion of the seed `0, 1, …, 31` in a context of degree 8 with moduli 17 and 97 (values computed by an independent implementation). -/
theorem Ex.expand_rows : SeedP.rows (List.range 32) [17, 97] 8 3 = .ok ([[5, 1, 6, 10, 11, 16, 0, 9], [18, 94, 9, 44, 28, 22, 51, 79]],
    (ChaCha8.fromSeed (Sha256.hash (List.range 32)) 3).drop 16) := by decide +kernel

example : ∃ c, IsContext 8 [17, 97] c ∧ ∀ rep,
    Poly.randomFromBytes c rep (List.range 32) 3 = .ok ⟨c, rep, [[5, 1, 6, 10, 11, 16, 0, 9], [18, 94, 9, 44, 28, 22, 51, 79]]⟩ ∧
    Poly.randomFromBytes c rep (List.range 32) 1 = .error .diverge := by
  obtain ⟨c, hc⟩ := exists_context
  refine ⟨c, hc, fun rep => ⟨?_, ?_⟩⟩
  · rw [SeedP.rows_eq hc, Ex.expand_rows]
    rfl
  · rw [SeedP.rows_eq hc, show SeedP.rows (List.range 32) [17, 97] 8 1 = .error .diverge by decide +kernel]
    rfl

/-- C96: an encryption whose mask is expanded from any seed decrypts to the message, if the blocks read suffice. -/
theorem c96_encrypt (h : IsParams N t l variance P) {sk : SecretKey} (hk : IsKey P sk) (pr pr' : Profile) (hv1 : 1 ≤ variance)
    (hv2 : variance ≤ 16) {pt : Plaintext} (hp : pt.params = P) (hlev : pt.level = 0) (hlen : pt.values.length ≤ N)
    (hv : ∀ x ∈ pt.values, x < 2 ^ 64) (seed : List Nat) (blocks : Nat) {rng : Nat → Nat} (hr : ∀ i, rng i < 2 ^ 64)
    (h2t : 2 * t ≤ l.getD 0 0) (hQ : 8 * t * (variance + 1) ≤ levelQ l 0) {c : RqContext} (hc : P.qCtxs[0]? = some c) :
    (Poly.randomFromBytes c .ntt seed blocks = .error .diverge ∧ sk.encryptBytes pr pt seed blocks rng = .error .diverge) ∨
    ∃ a b pt', Poly.randomFromBytes c .ntt seed blocks = .ok a ∧ sk.encryptBytes pr pt seed blocks rng = .ok ⟨P, [b, a], 0⟩ ∧
      sk.decrypt pr' ⟨P, [b, a], 0⟩ = .ok pt' ∧ pt'.values = (List.range N).map fun k => pt.values.getD k 0 % t := by
  obtain ⟨-, -, -, -, hql, -, -, ext, -, -, h3⟩ := c51_levels h
  have hl0 : 0 < l.length := by rw [← hql]; exact (List.getElem?_eq_some_iff.mp hc).1
  obtain ⟨c', e, hc', -, hctx, -⟩ := h3 0 hl0
  obtain rfl : c' = c := Option.some.inj (hc'.symm.trans hc)
  obtain ⟨p, M, hM, hPM, -⟩ := c29_to_poly h pr hp (by omega) hlen hv
  have hpc : p.context = c' := by
    obtain ⟨d, hd, h1, -⟩ := hPM
    rw [hlev] at hd
    exact h1.trans (Option.some.inj (hd.symm.trans hc))
  have key : ∀ tape : Nat → Nat → Nat, TapeAt l 0 tape → ∃ s as b b' b'' pt', sk.polyNtt pr c' = .ok s ∧ (Poly.random c' tape .ntt).mul pr s = .ok as ∧
      Poly.randomSmall pr c' .ntt sk.params.variance rng = .ok b ∧ b.sub pr as = .ok b' ∧ b'.add pr p = .ok b'' ∧
      sk.decrypt pr' ⟨P, [b'', Poly.random c' tape .ntt], 0⟩ = .ok pt' ∧ pt'.values = (List.range N).map fun k => pt.values.getD k 0 % t := by
    intro tape ht
    obtain ⟨ct, pt', h4, h5, h6⟩ := c30_encrypt_decrypt h hk pr pr' hv1 hv2 hp hlev hlen hv ht hr h2t hQ
    unfold SecretKey.encrypt at h4
    rw [hM, res_ok_bind] at h4
    unfold SecretKey.encryptPoly at h4
    simp only [bind_eq_ok, hpc] at h4
    obtain ⟨s, a1, as, a2, b, a3, b', a4, b'', a5, a6⟩ := h4
    cases a6
    rw [hk.1] at h5
    exact ⟨s, as, b, b', b'', pt', a1, a2, a3, a4, a5, h5, h6⟩
  rcases SeedP.total hctx .ntt seed blocks with h4 | ⟨a, tape, h4, h5, rfl⟩
  · refine Or.inl ⟨h4, ?_⟩
    obtain ⟨s, -, -, -, -, -, h6, -⟩ := key (fun _ _ => 0) (fun k j hk => by
      exact SeedP.moduli_pos hctx hk)
    unfold SecretKey.encryptBytes
    rw [hM, res_ok_bind]
    unfold SecretKey.encryptPolyBytes
    rw [hpc, h6, res_ok_bind, h4]
    rfl
  · obtain ⟨s, as, b, b', b'', pt', a1, a2, a3, a4, a5, a6, a7⟩ := key tape h5
    refine Or.inr ⟨_, b'', pt', h4, ?_, a6, a7⟩
    unfold SecretKey.encryptBytes
    rw [hM, res_ok_bind]
    unfold SecretKey.encryptPolyBytes
    rw [hpc, a1, res_ok_bind, h4, res_ok_bind, a2, res_ok_bind, a3, res_ok_bind, a4, res_ok_bind, a5, res_ok_bind, hk.1]

/-- Encryption with the mask expanded from the seed `0, 1, …, 31`, followed by decryption. -/
example : ∃ P sk c b pt, IsParams 8 17 Ex.mods 10 P ∧ IsKey P sk ∧ P.qCtxs[0]? = some c ∧
    sk.encryptBytes .debug ⟨P, 0, .poly, [1, 2, 3]⟩ (List.range 32) 4 (fun i => i % 1000) =
      .ok ⟨P, [b, ⟨c, .ntt, [[353002, 98292, 397532, 653003, 723003, 1017296, 14448, 564290], [203722, 1023349, 102528, 480568, 307203, 245596, 561110, 857579],
        [747331, 996544, 752759, 437331, 74136, 1044424, 709726, 837089]]⟩], 0⟩ ∧
    sk.decrypt .release ⟨P, [b, ⟨c, .ntt, [[353002, 98292, 397532, 653003, 723003, 1017296, 14448, 564290],
      [203722, 1023349, 102528, 480568, 307203, 245596, 561110, 857579], [747331, 996544, 752759, 437331, 74136, 1044424, 709726, 837089]]⟩], 0⟩ = .ok pt ∧
    pt.values = [1, 2, 3, 0, 0, 0, 0, 0] := by
  obtain ⟨P, h⟩ := Ex.exists_params
  obtain ⟨sk, -, hk, hb⟩ := c30_generate h .release (by norm_num) (by norm_num) Ex.wordTape
  obtain ⟨-, -, -, -, -, -, -, ext, -, -, h3⟩ := c51_levels h
  obtain ⟨c, e, hc, -, hctx, -⟩ := h3 0 (by decide)
  have hr : SeedP.rows (List.range 32) (levelModuli Ex.mods 0) 8 4 = .ok ([[353002, 98292, 397532, 653003, 723003, 1017296, 14448, 564290],
      [203722, 1023349, 102528, 480568, 307203, 245596, 561110, 857579], [747331, 996544, 752759, 437331, 74136, 1044424, 709726, 837089]],
      (ChaCha8.fromSeed (Sha256.hash (List.range 32)) 4).drop 24) := by decide +kernel
  have hx := SeedP.rows_eq hctx .ntt (List.range 32) 4
  rw [hr, res_ok_bind] at hx
  rcases c96_encrypt h hk .debug .release (by norm_num) (by norm_num) (pt := ⟨P, 0, .poly, [1, 2, 3]⟩) rfl rfl (by norm_num) (by simp) (List.range 32) 4
    Ex.wordTape (by decide) (by rw [Ex.levelQ_mods0]; norm_num) hc with ⟨h4, -⟩ | ⟨a, b, pt, h4, h5, h6, h7⟩
  · rw [hx] at h4
    cases h4
  · rw [hx] at h4
    cases h4
    exact ⟨P, sk, c, b, pt, h, hk, hc, h5, h6, h7.trans (by rfl)⟩

/-- C96: however the seed is chosen, at most `2^256` polynomials can be masks; if there are more elements of `R_Q`, some are never drawn. So the masks
are uniform only as far as SHA-256 and ChaCha8 are good pseudorandom functions: the theorems that count tapes (C77, C79, C82) idealise them. -/
theorem c96_masks {c : RqContext} (hc : IsContext N l c) (rep : Representation) :
    {p : Poly | ∃ seed blocks, seed.length = 32 ∧ (∀ x ∈ seed, x < 256) ∧ Poly.randomFromBytes c rep seed blocks = .ok p}.ncard ≤ 2 ^ 256 ∧
    (2 ^ 256 < l.prod ^ N → ∃ p : Poly, p.context = c ∧ p.representation = rep ∧ ValidRows c p.coefficients ∧
      ∀ seed blocks, seed.length = 32 → (∀ x ∈ seed, x < 256) → Poly.randomFromBytes c rep seed blocks ≠ .ok p) := by
  have hset : {p : Poly | ∃ seed blocks, seed.length = 32 ∧ (∀ x ∈ seed, x < 256) ∧ Poly.randomFromBytes c rep seed blocks = .ok p} =
      {p : Poly | ∃ seed, seed.length = 32 ∧ (∀ x ∈ seed, x < 256) ∧ ∃ blocks, Poly.randomFromBytes c rep seed blocks = .ok p} := by
    ext p
    constructor
    · rintro ⟨s, b, h1, h2, h3⟩
      exact ⟨s, h1, h2, b, h3⟩
    · rintro ⟨s, h1, h2, b, h3⟩
      exact ⟨s, b, h1, h2, h3⟩
  obtain ⟨hfin, hcard⟩ := SeedP.card_image 32 256 (R := fun s p => ∃ blocks, Poly.randomFromBytes c rep s blocks = .ok p)
    (fun s p q ⟨a, ha⟩ ⟨b, hb⟩ => SeedP.blocks_irrelevant hc rep s ha hb)
  rw [← hset] at hfin hcard
  rw [show (256 : Nat) ^ 32 = 2 ^ 256 by norm_num] at hcard
  refine ⟨hcard, fun hlt => ?_⟩
  by_contra hcon
  push Not at hcon
  obtain ⟨K, rfl, hw, rfl⟩ := RqP.ctx hc
  have hlen : c.moduli.length = c.moduli64.length := by rw [hw.core.m64, hw.core.mods, ← hw.core.rns.ps, List.length_map]
  let g : ((i : Fin c.moduli64.length) → Fin (2 ^ K) → Fin (c.moduli64[i])) → Poly := fun v =>
    ⟨c, rep, List.ofFn fun i => List.ofFn fun j => (v i j).val⟩
  have hg : Function.Injective g := by
    intro v w h
    simp only [g, Poly.mk.injEq, true_and, List.ofFn_inj] at h
    funext i j
    have h1 := congrFun h i
    rw [List.ofFn_inj] at h1
    exact Fin.ext (congrFun h1 j)
  have hsub : Set.range g ⊆ {p : Poly | ∃ seed blocks, seed.length = 32 ∧ (∀ x ∈ seed, x < 256) ∧ Poly.randomFromBytes c rep seed blocks = .ok p} := by
    rintro p ⟨v, rfl⟩
    refine hcon (g v) rfl rfl ⟨by simp [g], fun i hi => ?_⟩
    have e : (g v).coefficients.getD i [] = List.ofFn fun j => (v ⟨i, hi⟩ j).val := by
      simp [g, List.getD, hi]
    rw [e, hw.core.deg]
    refine ⟨by simp, fun x hx => ?_⟩
    obtain ⟨j, rfl⟩ := List.mem_ofFn.mp hx
    rw [List.getD_eq_getElem _ _ hi]
    exact (v ⟨i, hi⟩ j).isLt
  have h1 := Set.ncard_le_ncard hsub hfin
  rw [← Set.image_univ, Set.ncard_image_of_injective _ hg, Set.ncard_univ, Nat.card_eq_fintype_card] at h1
  have h2 : Fintype.card ((i : Fin c.moduli64.length) → Fin (2 ^ K) → Fin (c.moduli64[i])) = c.moduli64.prod ^ 2 ^ K := by
    simp only [Fintype.card_pi, Fintype.card_fin, Finset.prod_const, Finset.card_univ, Finset.prod_pow]
    exact congrArg (· ^ 2 ^ K) (Fin.prod_univ_getElem c.moduli64)
  omega

/-- With degree 8 and three moduli of 21 bits some polynomial is no mask. -/
example : ∃ P c p, IsParams 8 17 Ex.mods 10 P ∧ P.qCtxs[0]? = some c ∧ p.context = c ∧ p.representation = .ntt ∧ ValidRows c p.coefficients ∧
    ∀ seed blocks, seed.length = 32 → (∀ x ∈ seed, x < 256) → Poly.randomFromBytes c .ntt seed blocks ≠ .ok p := by
  obtain ⟨P, h⟩ := Ex.exists_params
  obtain ⟨-, -, -, -, -, -, -, ext, -, -, h3⟩ := c51_levels h
  obtain ⟨c, e, hc, -, hctx, -⟩ := h3 0 (by decide)
  obtain ⟨p, h4, h5, h6, h7⟩ := (c96_masks hctx .ntt).2 (by decide +kernel)
  exact ⟨P, c, p, h, hc, h4, h5, h6, h7⟩

end OnionPIR
