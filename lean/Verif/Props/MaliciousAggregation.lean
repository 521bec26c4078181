/-
Property C100: sums of verified ciphertexts, some of them submitted by an adversary.
-/
import Verif.SpecAggregate
import Verif.Props.DkgTapes
import Verif.Props.Batch

namespace Verif
open Spec Agm

section
variable {E : Engine}

/-- **C100** Under a distributed key every ciphertext of the SAVER form of chunks below `2^b'` says these chunks at chunk
size `b'`, which need not be that of the key. -/
theorem C100_says (parties : List (Party E)) (b : UInt8) (gens : EncryptionGens E) (g_i : List E.G1)
    (D C : E.G1) (sks : List (SecretKeyST E)) (ek : EncryptionKey E)
    (hdkg : dkg parties b gens g_i D C = .ok (sks, ek)) (hgi : ∀ g ∈ g_i, g ≠ 0) (b' : UInt8) (hb' : b'.toNat < 32)
    (chunks : List UInt16) (hlen : chunks.length = ek.X.length)
    (hch : ∀ x ∈ chunks, x.toNat < 2 ^ b'.toNat ∧ x.toNat < E.fr.p) (r : E.Fr) :
    Says b' gens g_i sks (cipher ek (fun i => g_i.getD i 0) (fun i => (nums chunks).getD i 0) r) chunks := by
  intro Rd std std' skd ekd hdest rp hrp chk
  obtain ⟨n, s, t, hn, hgn, hek⟩ := fromSetup_inv (Or.inr ⟨parties, sks, hdkg⟩ : FromSetup ek b gens g_i D C)
  have hX : ek.X.length = n.toNat := by rw [hek]; simp [encKey]
  have henc := encryptDecomposed_ok (tape E) (fun _ => r) chunks ek g_i (by rw [hek]; exact encKey_wf _ _ _ _ _ _ _)
    (by rw [hX]; exact n.toNat_lt) hlen (by omega)
  obtain ⟨ct, g_r, cs, h1, h2, h3⟩ := C27_reencryption_delivers parties b gens g_i D C sks ek hdkg hgi Rd std std' skd
    ekd hdest (tape E) (fun _ => r) _ chunks _ _ henc rp hrp chk b' hb'
    (fun x hx => ⟨by have := (hch x hx).1; omega, (hch x hx).2⟩)
  rw [draw_tape] at h1
  rw [flat_inj h1]
  exact ⟨g_r, cs, h2, h3⟩

namespace Agg

/-- the adversary that submits only its `i`-th ciphertext -/
def at' (i : ℕ) : Prover E (ℕ → Strategy E.Fr) → Prover E (Strategy E.Fr)
  | .output a => .output (a i)
  | .ask q yes no => .ask q (at' i yes) (at' i no)

theorem questions_at (i : ℕ) (A : Prover E (ℕ → Strategy E.Fr)) : (at' i A).questions = A.questions := by
  induction A with
  | output a => rfl
  | ask q y n h1 h2 => simp only [at', Prover.questions, h1, h2]

theorem choice_at (i : ℕ) (A : Prover E (ℕ → Strategy E.Fr)) (v1 : List E.G1) (v2 : List E.G2) :
    (at' i A).choice v1 v2 = A.choice v1 v2 i := by
  induction A with
  | output a => rfl
  | ask q y n h1 h2 =>
    simp only [at', Prover.choice, h1, h2]
    split <;> rfl

/-- a submission is the SAVER encryption of in-range chunks -/
def Good (b n : UInt8) (ek : EncryptionKey E) (g_i : List E.G1) (ct : Ciphertext E) (v : List UInt16) : Prop :=
  v.length = n.toNat ∧ (∀ x ∈ v, x.toNat < 2 ^ b.toNat) ∧
    ∃ r, ct = cipher ek (fun i => g_i.getD i 0) (fun i => (nums v).getD i 0) r

theorem nums_le {b : UInt8} {v : List UInt16} (h : ∀ x ∈ v, x.toNat < 2 ^ b.toNat) (i : ℕ) :
    (nums v).getD i 0 ≤ 2 ^ b.toNat - 1 := by
  unfold nums
  rw [List.getD_eq_getElem?_getD, List.getElem?_map]
  cases hx : v[i]? with
  | none => simp
  | some x =>
    have := h x (List.mem_of_getElem? hx)
    simp only [Option.map_some, Option.getD_some]
    omega

/-- from the form of the accepted submissions to what their sums say -/
theorem sums {b n : UInt8} (hn : chunksCount E.fr b = .ok n) {gens : EncryptionGens E} {parties : List (Party E)}
    {pk : ProvingKey E} {ek : EncryptionKey E} {g_i : List E.G1} {sks}
    (hg : getGsForEncryption pk.pk.vk = .ok g_i)
    (hdkg : dkg parties b gens g_i pk.pk.delta_g1 pk.gamma_g1 = .ok (sks, ek))
    (hgi : ∀ g ∈ g_i, g ≠ 0) {all : List (Ciphertext E × Proof E)} {values : List (List UInt16)}
    (hgood : ∀ s ct proof, all[s]? = some (ct, proof) → Accepted gens pk ek ct proof →
      Good b n ek g_i ct (values.getD s [])) :
    SumsTold b n.toNat gens parties pk ek all values := by
  refine ⟨g_i, sks, hg, hdkg, fun sel hne hacc b' hb' hlt hltp => ?_⟩
  obtain ⟨n1, s, t, hn1, -, hek⟩ := fromSetup_inv (Or.inr ⟨_, sks, hdkg⟩ :
    FromSetup ek b gens g_i pk.pk.delta_g1 pk.gamma_g1)
  rw [hn] at hn1
  cases hn1
  have hX : ek.X.length = n.toNat := by rw [hek]; simp [encKey]
  have hall : ∀ s ∈ sel, ∃ r ct proof, all[s]? = some (ct, proof) ∧ (∀ x ∈ values.getD s [], x.toNat < 2 ^ b.toNat) ∧
      ct = cipher ek (fun i => g_i.getD i 0) (fun i => (nums (values.getD s [])).getD i 0) r := fun s hs => by
    obtain ⟨ct, proof, h1, h2⟩ := hacc s hs
    obtain ⟨-, h3, r, h4⟩ := hgood s ct proof h1 h2
    exact ⟨r, ct, proof, h1, h3, h4⟩
  classical
  obtain ⟨ρ, hρ⟩ : ∃ ρ : ℕ → E.Fr, ∀ s ∈ sel, ∃ ct proof, all[s]? = some (ct, proof) ∧
      (∀ x ∈ values.getD s [], x.toNat < 2 ^ b.toNat) ∧
      ct = cipher ek (fun i => g_i.getD i 0) (fun i => (nums (values.getD s [])).getD i 0) (ρ s) := by
    refine ⟨fun s => if h : s ∈ sel then (hall s h).choose else 0, fun s hs => ?_⟩
    dsimp only
    rw [dif_pos hs]
    exact (hall s hs).choose_spec
  have hmap : (sel.filterMap fun s => (all[s]?).map fun c => flat c.1) = sel.map fun s =>
      flat (cipher ek (fun i => g_i.getD i 0) (fun i => (nums (values.getD s [])).getD i 0) (ρ s)) := by
    clear hne hlt hltp hacc hall
    induction sel with
    | nil => rfl
    | cons s sel ih =>
      obtain ⟨ct, proof, h1, -, h2⟩ := hρ s (by simp)
      rw [List.filterMap_cons_some (b := flat ct) (by rw [h1]; rfl), List.map_cons, ih (fun s hs => hρ s (by simp [hs])), h2]
  have hsum : ∀ i, (sel.map fun s => (nums (values.getD s [])).getD i 0).sum ≤ sel.length * (2 ^ b.toNat - 1) := fun i => by
    have := List.sum_le_card_nsmul (sel.map fun s => (nums (values.getD s [])).getD i 0) (2 ^ b.toNat - 1) (fun x hx => by
      obtain ⟨s, hs, rfl⟩ := List.mem_map.mp hx
      obtain ⟨_, _, -, h, -⟩ := hρ s hs
      exact nums_le h i)
    simpa using this
  have h16 : 2 ^ b'.toNat ≤ 2 ^ 16 := Nat.pow_le_pow_right (by omega) hb'
  let S : ℕ → ℕ := fun i => (sel.map fun s => (nums (values.getD s [])).getD i 0).sum
  have hto : ∀ i, (UInt16.ofNat (S i)).toNat = S i := fun i =>
    UInt16.toNat_ofNat_of_lt' (by
      have := hsum i
      show S i < 2 ^ 16
      simp only [S]
      omega)
  have hval : ∀ i < n.toNat, (nums (tab n.toNat fun i => UInt16.ofNat (S i))).getD i 0 = S i := fun i hi => by
    unfold nums
    rw [map_tab, getD_tab, if_pos hi, hto i]
  refine ⟨cipher ek (fun i => g_i.getD i 0) S (sel.map ρ).sum, tab n.toNat fun i => UInt16.ofNat (S i), ?_, ?_, ?_,
    length_tab _ _, hval⟩
  · rw [hmap]
    exact aggregate_cipher ek _ sel hne (fun s i => (nums (values.getD s [])).getD i 0) ρ
  · rw [hek]
    exact cipher_verifies n s t _ _ _ gens _ _
  · rw [Nm.cipher_congr ek _ S (fun i => (nums (tab n.toNat fun i => UInt16.ofNat (S i))).getD i 0)]
    · exact C100_says parties b gens g_i _ _ sks ek hdkg hgi b' (by omega) _ (by rw [length_tab, hX]) (fun x hx => by
        obtain ⟨i, hi, rfl⟩ := Dlv.mem_tab.mp hx
        rw [hto i]
        have := hsum i
        simp only [S]
        omega) _
    · intro i hi
      rw [hX] at hi
      rw [hval i hi]

theorem len_encryptAll {T : FftCfg E.Fr} {chk : Bool} {R : RngCore E} {ek : EncryptionKey E} {pk : ProvingKey E}
    {b : UInt8} {ms : List E.Fr} {st st' : R.σ} {l : List (Ciphertext E × Proof E)}
    (h : encryptAll T chk R ek pk b ms st = .ok (l, st')) : l.length = ms.length := by
  induction ms generalizing st st' l with
  | nil =>
    simp only [encryptAll, Res.ok.injEq, Prod.mk.injEq] at h
    obtain ⟨rfl, -⟩ := h
    rfl
  | cons m ms ih =>
    unfold encryptAll at h
    obtain ⟨⟨⟨ct, r, proof⟩, st2⟩, -, h⟩ := Res.bind_eq_ok.mp h
    obtain ⟨⟨l', st3⟩, h2, h⟩ := Res.bind_eq_ok.mp h
    simp only [Res.pure_eq, Res.ok.injEq, Prod.mk.injEq] at h
    obtain ⟨rfl, -⟩ := h
    rw [List.length_cons, List.length_cons, ih h2]

/-- the submissions of the honest users -/
theorem honest {T : FftCfg E.Fr} {b n : UInt8} (hb : Supported b) (hn : chunksCount E.fr b = .ok n)
    (hal : 64 * E.fr.limbs < E.fr.modBits + b.toNat ∧ chunksNeeded E.fr b.toNat ≤ 255) {gens : EncryptionGens E}
    {parties : List (Party E)} {f f' f1 f2 : ℕ → E.Fr} {F : ℕ} {pk : ProvingKey E} {ek : EncryptionKey E}
    {g_i : List E.G1} {sks} {c0 : BitsizeCheckCircuit E.fr}
    (hc0 : BitsizeCheckCircuit.new (K := E.fr) b none none true = .ok c0)
    (hsrs : generateSrs T (tape E) F f c0.generateConstraints gens = .ok (pk, f'))
    (hg : getGsForEncryption pk.pk.vk = .ok g_i)
    (hdkg : dkg parties b gens g_i pk.pk.delta_g1 pk.gamma_g1 = .ok (sks, ek))
    {chk : Bool} {ms : List E.Fr} {l : List (Ciphertext E × Proof E)}
    (hl : encryptAll T chk (tape E) ek pk b ms f1 = .ok (l, f2)) :
    ∃ vs : List (List UInt16), List.Forall₂ (fun m ds => decompose (K := E.fr) m b = .ok ds) ms vs ∧
      l.length = ms.length ∧ vs.length = ms.length ∧ (∀ p ∈ l, Accepted gens pk ek p.1 p.2) ∧
      ∀ j ct proof, l[j]? = some (ct, proof) → Good b n ek g_i ct (vs.getD j []) := by
  obtain ⟨n1, s, t, hn1, hgn, hek⟩ := fromSetup_inv (Or.inr ⟨_, sks, hdkg⟩ :
    FromSetup ek b gens g_i pk.pk.delta_g1 pk.gamma_g1)
  rw [hn] at hn1
  cases hn1
  have hX : ek.X.length = n.toNat := by rw [hek]; simp [encKey]
  obtain ⟨hll, hfacts⟩ := Nm.encryptAll_facts T (tape E) F f f' b hb hal c0 gens pk hc0 hsrs g_i hg ek
    (Or.inr ⟨_, sks, hdkg⟩) chk (tape E) ms f1 f2 l hl
  refine ⟨ms.map fun m => (decompose_spec (K := E.fr) m hb).choose, ?_, hll, by simp, fun p hp => ?_,
    fun j ct proof hj => ?_⟩
  · rw [List.forall₂_map_right_iff]
    exact List.forall₂_same.mpr fun m _ => (decompose_spec (K := E.fr) m hb).choose_spec.1
  · obtain ⟨j, hj⟩ := List.mem_iff_getElem?.mp hp
    obtain ⟨m, st3, r, -, -, h⟩ := hfacts j p hj
    exact h
  · obtain ⟨m, st3, r, h1, h2, -⟩ := hfacts j (ct, proof) hj
    rw [List.getD_eq_getElem?_getD, List.getElem?_map, h1, Option.map_some, Option.getD_some]
    obtain ⟨hds, hdl, hdb, -⟩ := (decompose_spec (K := E.fr) m hb).choose_spec
    have hl2 := (decomp_len_eq_iff E.fr b n hb hn).mpr hal
    have h := encrypt_ok (tape E) st3 m ek g_i b hds (by rw [hek]; exact encKey_wf _ _ _ _ _ _ _)
      (by rw [hX]; exact n.toNat_lt) (by omega) (by omega)
    rw [h2] at h
    simp only [Res.ok.injEq, Prod.mk.injEq] at h
    exact ⟨by omega, hdb, _, h.1.1⟩

end Agg

section
variable (T : FftCfg E.Fr) (b n : UInt8) (hb : Supported b) (hn : chunksCount E.fr b = .ok n)
    (hbm : b.toNat ≤ E.fr.modBits)
    (hal : 64 * E.fr.limbs < E.fr.modBits + b.toNat ∧ chunksNeeded E.fr b.toNat ≤ 255)
    (gens : EncryptionGens E) (hG : gens.G ≠ 0) (hH : gens.H ≠ 0) (d : EvalDomain E.Fr)
    (hd : T.newDomain (n.toNat * constraintsPerValue E.fr.modBits b.toNat + (n.toNat + 1)) = some d)
    (others1 others2 : List (Party E))

namespace Agg

include hb hn hbm hal hG hH hd in
/-- the contribution of one submission -/
theorem one (chk : Bool) (q : ℕ) (A : Prover E (ℕ → Strategy E.Fr)) (i : ℕ) :
    ∃ c : Contribution, c.Valid n.toNat b.toNat q ∧ ∀ ms : List E.Fr, ms.length = q →
      ∃ B : Finset (Fin (6 + 2 * n.toNat + 3 * q) → E.Fr),
        B.card ≤ (A.questions + 1) * (3 * d.size + 6) * E.fr.p ^ (5 + 2 * n.toNat + 3 * q) ∧
        ∀ x, x ∉ B → ∀ pk keys shares ek l f' g_i sks c0 f1,
          setupForDkg T (tape E) 1 (tapeOf x) b gens (team others1 others2 (tapeOf x)) = .ok (pk, keys, shares, ek) →
          encryptAll T chk (tape E) ek pk b ms (fun i => tapeOf x (6 + 2 * ek.X.length + i)) = .ok (l, f') →
          BitsizeCheckCircuit.new (K := E.fr) b none none true = .ok c0 →
          generateSrs T (tape E) 1 (tapeOf x) c0.generateConstraints gens = .ok (pk, f1) →
          getGsForEncryption pk.pk.vk = .ok g_i →
          dkg (team others1 others2 (tapeOf x)) b gens g_i pk.pk.delta_g1 pk.gamma_g1 = .ok (sks, ek) →
          ∀ vs : List (List UInt16), (∀ j ct proof, l[j]? = some (ct, proof) → Good b n ek g_i ct (vs.getD j [])) →
          ∀ ct proof, (submitted (i + 1) A (dkgView1 gens pk keys shares ek l) (dkgView2 gens pk keys ek l))[i]? =
              some (ct, proof) → Accepted gens pk ek ct proof →
            Good b n ek g_i ct (c.value vs) := by
  classical
  have hb16 : 2 ^ b.toNat ≤ 2 ^ 16 := by rcases hb with rfl | rfl | rfl <;> decide
  have hgt : ∀ {pk : ProvingKey E} {g_i : List E.G1}, getGsForEncryption pk.pk.vk = .ok g_i →
      g_i = pk.pk.vk.gamma_abc_g1.tail := fun {pk g_i} hg => by
    unfold getGsForEncryption at hg
    cases h : pk.pk.vk.gamma_abc_g1 with
    | nil => rw [h] at hg; cases hg
    | cons a l => rw [h] at hg; cases hg; rfl
  have hsub : ∀ {v1 : List E.G1} {v2 : List E.G2} {ct proof}, (submitted (i + 1) A v1 v2)[i]? = some (ct, proof) →
      (at' i A).cipher v1 v2 = ct ∧ (at' i A).proof v1 v2 = proof := fun {v1 v2 ct proof} h => by
    unfold submitted at h
    rw [getElem?_tab, if_pos (by omega)] at h
    simp only [Option.some.injEq, Prod.mk.injEq] at h
    unfold Prover.cipher Prover.proof
    rw [choice_at]
    exact h
  rcases C90_adaptive_bound T b n hb hn hbm hal gens hG hH d hd others1 others2 chk q (at' i A) with
    ⟨m, r, hm, h⟩ | ⟨j, u, hj, h⟩
  · have hto : ∀ i < n.toNat, (UInt16.ofNat (m i)).toNat = m i := fun i hi =>
      UInt16.toNat_ofNat_of_lt' (lt_of_lt_of_le (hm i hi).1 hb16)
    have hin : ∀ x ∈ tab n.toNat fun i => UInt16.ofNat (m i), x.toNat < 2 ^ b.toNat := fun x hx => by
      obtain ⟨i, hi, rfl⟩ := Dlv.mem_tab.mp hx
      rw [hto i hi]
      exact (hm i hi).1
    refine ⟨.own (tab n.toNat fun i => UInt16.ofNat (m i)), ⟨length_tab _ _, hin⟩, fun ms hms => ?_⟩
    rw [← questions_at i A]
    refine ⟨(Set.toFinite _).toFinset, (le_of_eq (Set.ncard_eq_toFinset_card _ _).symm).trans (h ms hms), ?_⟩
    intro x hx pk keys shares ek l f' g_i sks c0 f1 hset hl hc0 hsrs hg hdkg vs hvs ct proof hct hacc
    rw [Set.Finite.mem_toFinset] at hx
    obtain ⟨e1, e2⟩ := hsub hct
    have he : Encrypts pk ek m r ct := by
      by_contra hc
      refine hx ⟨pk, keys, shares, ek, l, f', hset, hl, ?_⟩
      rw [e1, e2]
      exact ⟨hacc, hc⟩
    refine ⟨length_tab _ _, hin, r, ?_⟩
    obtain ⟨n1, s, t, hn1, -, hek⟩ := fromSetup_inv (Or.inr ⟨_, sks, hdkg⟩ :
      FromSetup ek b gens g_i pk.pk.delta_g1 pk.gamma_g1)
    rw [hn] at hn1
    cases hn1
    have hX : ek.X.length = n.toNat := by rw [hek]; simp [encKey]
    rw [he, ← hgt hg]
    refine Nm.cipher_congr ek _ m _ r fun i hi => ?_
    rw [hX] at hi
    unfold nums Contribution.value
    rw [map_tab, getD_tab, if_pos hi, hto i hi]
  · refine ⟨.copyOf j, hj, fun ms hms => ?_⟩
    rw [← questions_at i A]
    refine ⟨(Set.toFinite _).toFinset, (le_of_eq (Set.ncard_eq_toFinset_card _ _).symm).trans (h ms hms), ?_⟩
    intro x hx pk keys shares ek l f' g_i sks c0 f1 hset hl hc0 hsrs hg hdkg vs hvs ct proof hct hacc
    rw [Set.Finite.mem_toFinset] at hx
    obtain ⟨e1, e2⟩ := hsub hct
    have he : Rerandomises ek l j u ct := by
      by_contra hc
      refine hx ⟨pk, keys, shares, ek, l, f', hset, hl, ?_⟩
      rw [e1, e2]
      exact ⟨hacc, hc⟩
    obtain ⟨ct0, proof0, hj0, rfl⟩ := he
    obtain ⟨h1, h2, r, rfl⟩ := hvs j ct0 proof0 hj0
    exact ⟨h1, h2, r + u, (C77_fresh ek _ _ r u).1⟩

end Agg

namespace Agg

/-- the honest submissions are accepted, and every accepted submission is the encryption of its contribution -/
def Facts (T : FftCfg E.Fr) (b n : UInt8) (gens : EncryptionGens E) (parties : List (Party E)) (ms : List E.Fr) (k : ℕ)
    (c : ℕ → Contribution) (pk : ProvingKey E) (ek : EncryptionKey E) (l subs : List (Ciphertext E × Proof E)) : Prop :=
  ∃ c0 g_i sks, ∃ vs : List (List UInt16), ∃ (F : ℕ) (f f1 : ℕ → E.Fr),
    BitsizeCheckCircuit.new (K := E.fr) b none none true = .ok c0 ∧
    generateSrs T (tape E) F f c0.generateConstraints gens = .ok (pk, f1) ∧ getGsForEncryption pk.pk.vk = .ok g_i ∧
    dkg parties b gens g_i pk.pk.delta_g1 pk.gamma_g1 = .ok (sks, ek) ∧ (∀ g ∈ g_i, g ≠ 0) ∧
    List.Forall₂ (fun m ds => decompose (K := E.fr) m b = .ok ds) ms vs ∧ l.length = ms.length ∧
    (∀ p ∈ l, Accepted gens pk ek p.1 p.2) ∧
    ∀ s ct proof, (l ++ subs)[s]? = some (ct, proof) → Accepted gens pk ek ct proof →
      Good b n ek g_i ct ((vs ++ tab k fun i => (c i).value vs).getD s [])

theorem Facts.sums {T : FftCfg E.Fr} {b n : UInt8} (hn : chunksCount E.fr b = .ok n) {gens : EncryptionGens E}
    {parties : List (Party E)} {ms : List E.Fr} {k : ℕ} {c : ℕ → Contribution} {pk : ProvingKey E} {ek : EncryptionKey E}
    {l subs : List (Ciphertext E × Proof E)} (h : Facts T b n gens parties ms k c pk ek l subs) :
    HonestSums b n.toNat gens parties ms k c pk ek l subs := by
  obtain ⟨c0, g_i, sks, vs, F, f, f1, hc0, hsrs, hg, hdkg, hgi, hvs, hll, hacc, hgood⟩ := h
  exact ⟨hacc, vs, hvs, Agg.sums hn hg hdkg hgi hgood⟩

include hb hn hbm hal hG hH hd in
theorem facts_one (chk : Bool) (q k : ℕ) (A : Prover E (ℕ → Strategy E.Fr)) :
    ∃ c : ℕ → Contribution, (∀ i < k, (c i).Valid n.toNat b.toNat q) ∧ ∀ ms : List E.Fr, ms.length = q →
      {g : Fin (6 + 2 * n.toNat + 3 * q) → E.Fr |
        AggOutcome 1 T chk b gens others1 others2 ms k A (tapeOf g) (fun i => tapeOf g (5 + i)) (fun pk ek l subs =>
          ¬ Facts T b n gens (team others1 others2 (tapeOf g)) ms k c pk ek l subs)}.ncard ≤
        (k * ((A.questions + 1) * (3 * d.size + 6)) + n.toNat) * E.fr.p ^ (5 + 2 * n.toNat + 3 * q) := by
  classical
  choose c hc hB using fun i => Agg.one T b n hb hn hbm hal gens hG hH d hd others1 others2 chk q A i
  refine ⟨c, fun i _ => hc i, fun ms hms => ?_⟩
  obtain ⟨B0, hB0, hout⟩ := Dlv.bases T b n hn hbm gens hG d hd others1 others2 (6 + 2 * n.toNat + 3 * q) (by omega)
  rw [show 6 + 2 * n.toNat + 3 * q - 1 = 5 + 2 * n.toNat + 3 * q by omega] at hB0
  choose B hBc hBg using fun i => hB i ms hms
  have hU : ((Finset.range k).biUnion B ∪ B0).card ≤
      (k * ((A.questions + 1) * (3 * d.size + 6)) + n.toNat) * E.fr.p ^ (5 + 2 * n.toNat + 3 * q) := by
    refine (Finset.card_union_le _ _).trans ?_
    rw [Nat.add_mul, Nat.mul_assoc k]
    refine Nat.add_le_add ?_ hB0
    have := Finset.card_biUnion_le_card_mul (Finset.range k) B _ fun i _ => hBc i
    rwa [Finset.card_range] at this
  refine (Set.ncard_le_ncard (t := (((Finset.range k).biUnion B ∪ B0 : Finset _) : Set _)) ?_ (Set.toFinite _)).trans
    ((le_of_eq (Set.ncard_coe_finset _)).trans hU)
  intro x hx
  by_contra hxB
  have hx0 : x ∉ B0 := fun h => hxB (by simp [h])
  have hxi : ∀ i < k, x ∉ B i := fun i hi h => hxB (by
    refine Finset.mem_coe.mpr (Finset.mem_union_left _ (Finset.mem_biUnion.mpr ⟨i, Finset.mem_range.mpr hi, h⟩)))
  obtain ⟨pk, keys, shares, ek, l, f', hset, hl, hP⟩ := hx
  have e2 : ∀ m i : ℕ, 5 + (1 + 2 * m + i) = 6 + 2 * m + i := fun m i => by omega
  simp only [e2] at hl
  obtain ⟨c0, g_i, sks, f1, hc0, hsrs, hg, hdkg, hgi⟩ := hout x hx0 pk keys shares ek hset
  obtain ⟨vs, hvs, hll, hvl, hacc, hgood⟩ := Agg.honest hb hn hal hc0 hsrs hg hdkg hl
  refine hP ⟨c0, g_i, sks, vs, 1, tapeOf x, f1, hc0, hsrs, hg, hdkg, hgi, hvs, hll, hacc, fun s ct proof hs hsacc => ?_⟩
  rcases Nat.lt_or_ge s q with hsq | hsq
  · rw [List.getElem?_append_left (by omega)] at hs
    rw [List.getD_eq_getElem?_getD, List.getElem?_append_left (by omega), ← List.getD_eq_getElem?_getD]
    exact hgood s ct proof hs
  · rw [List.getElem?_append_right (by omega), hll, hms] at hs
    rw [List.getD_eq_getElem?_getD, List.getElem?_append_right (by omega), hvl, hms]
    have hsk : s - q < k := by
      unfold submitted at hs
      rw [getElem?_tab] at hs
      by_contra hc
      rw [if_neg hc] at hs
      cases hs
    rw [getElem?_tab, if_pos hsk, Option.getD_some]
    refine hBg (s - q) x (hxi _ hsk) pk keys shares ek l f' g_i sks c0 f1 hset hl hc0 hsrs hg hdkg vs hgood ct proof
      ?_ hsacc
    rw [← hs]
    unfold submitted
    rw [getElem?_tab, getElem?_tab, if_pos (by omega), if_pos hsk]

theorem mono {F : ℕ} {T : FftCfg E.Fr} {chk : Bool} {b : UInt8} {gens : EncryptionGens E} {others1 others2 : List (Party E)}
    {ms : List E.Fr} {k : ℕ} {A : Prover E (ℕ → Strategy E.Fr)} {fs h : ℕ → E.Fr}
    {P Q : ProvingKey E → EncryptionKey E → List (Ciphertext E × Proof E) → List (Ciphertext E × Proof E) → Prop}
    (hPQ : ∀ pk ek l subs, P pk ek l subs → Q pk ek l subs)
    (hP : AggOutcome F T chk b gens others1 others2 ms k A fs h P) :
    AggOutcome F T chk b gens others1 others2 ms k A fs h Q := by
  obtain ⟨pk, keys, shares, ek, l, h', h1, h2, h3⟩ := hP
  exact ⟨pk, keys, shares, ek, l, h', h1, h2, hPQ _ _ _ _ h3⟩

end Agg

include hb hn hbm hal hG hH hd in
/-- **C100** One candidate for the evaluation point, one tape for all draws: see `C100_sums`. -/
theorem C100_sums_one_candidate (chk : Bool) (q k : ℕ) (A : Prover E (ℕ → Strategy E.Fr)) :
    ∃ c : ℕ → Contribution, (∀ i < k, (c i).Valid n.toNat b.toNat q) ∧ ∀ ms : List E.Fr, ms.length = q →
      {g : Fin (6 + 2 * n.toNat + 3 * q) → E.Fr |
        AggOutcome 1 T chk b gens others1 others2 ms k A (tapeOf g) (fun i => tapeOf g (5 + i)) (fun pk ek l subs =>
          ¬ HonestSums b n.toNat gens (team others1 others2 (tapeOf g)) ms k c pk ek l subs)}.ncard ≤
        (k * ((A.questions + 1) * (3 * d.size + 6)) + n.toNat) * E.fr.p ^ (5 + 2 * n.toNat + 3 * q) := by
  obtain ⟨c, hc, h⟩ := Agg.facts_one T b n hb hn hbm hal gens hG hH d hd others1 others2 chk q k A
  refine ⟨c, hc, fun ms hms => (Set.ncard_le_ncard (fun g hg => ?_) (Set.toFinite _)).trans (h ms hms)⟩
  exact Agg.mono (P := fun pk ek l subs => ¬ HonestSums b n.toNat gens (team others1 others2 (tapeOf g)) ms k c pk ek l subs)
    (fun pk ek l subs h1 h2 => h1 (Agg.Facts.sums hn h2)) hg

namespace Agg

/-- a batch with a rejected commitment is accepted for few challenges -/
theorem batch_fiber (ek : EncryptionKey E) (hw : WellFormed ek) (h256 : ek.X.length < 256) (cts : List (Ciphertext E)) :
    {x : E.Fr | verifyCommitmentsInBatch cts (tab cts.length fun i => x ^ i) ek.prepare gens.prepare = .ok () ∧
      ∃ ct ∈ cts, ct.verifyCommitment ek.prepare gens.prepare ≠ .ok ()}.ncard ≤ cts.length - 1 := by
  classical
  by_cases hbad : ∃ ct ∈ cts, ct.verifyCommitment ek.prepare gens.prepare ≠ .ok ()
  · by_cases hs : ∀ ct ∈ cts, ct.enc_chunks.length = ek.X.length
    · obtain ⟨ct, hct, hrej⟩ := hbad
      have h := (C34_batch_sound cts ek gens hw h256 hs ct hct hrej).1
      rw [← Set.ncard_coe_finset] at h
      refine (Set.ncard_le_ncard (fun x hx => ?_) (Set.toFinite _)).trans h
      exact Finset.mem_coe.mpr (Finset.mem_filter.mpr ⟨Finset.mem_univ _, hx.1⟩)
    · have hne : {x : E.Fr | verifyCommitmentsInBatch cts (tab cts.length fun i => x ^ i) ek.prepare gens.prepare = .ok () ∧
          ∃ ct ∈ cts, ct.verifyCommitment ek.prepare gens.prepare ≠ .ok ()} = ∅ := by
        refine Set.eq_empty_of_forall_notMem fun x hx => ?_
        obtain ⟨pre, c, post, hpre, hc⟩ : ∃ pre c post, (cts = pre ++ c :: post ∧
            ∀ ct ∈ pre, ct.enc_chunks.length = ek.X.length) ∧ c.enc_chunks.length ≠ ek.X.length := by
          clear hx hbad
          induction cts with
          | nil => exact absurd (fun ct h => by simp at h) hs
          | cons a as ih =>
            by_cases ha : a.enc_chunks.length = ek.X.length
            · obtain ⟨pre, c, post, ⟨h1, h2⟩, h3⟩ := ih fun h => hs fun ct hct => by
                rcases List.mem_cons.mp hct with rfl | hct
                · exact ha
                · exact h ct hct
              refine ⟨a :: pre, c, post, ⟨by rw [h1]; rfl, fun ct hct => ?_⟩, h3⟩
              rcases List.mem_cons.mp hct with rfl | hct
              · exact ha
              · exact h2 ct hct
            · exact ⟨[], a, as, ⟨rfl, fun ct h => by simp at h⟩, ha⟩
        have := (C35_batch_cases cts (tab cts.length fun i => x ^ i) ek gens).2.2.2.2.1 pre c post hpre.1 (length_tab _ _) hw
          h256 hpre.2 hc
        rw [hx.1] at this
        cases this
      rw [hne, Set.ncard_empty]
      omega
  · have hne : {x : E.Fr | verifyCommitmentsInBatch cts (tab cts.length fun i => x ^ i) ek.prepare gens.prepare = .ok () ∧
        ∃ ct ∈ cts, ct.verifyCommitment ek.prepare gens.prepare ≠ .ok ()} = ∅ :=
      Set.eq_empty_of_forall_notMem fun x hx => hbad hx.2
    rw [hne, Set.ncard_empty]
    omega

/-- counting over the challenge -/
theorem challenge {L M D : ℕ} {Q : (ℕ → E.Fr) → (ℕ → E.Fr) → E.Fr → Prop} {Q1 : (ℕ → E.Fr) → (ℕ → E.Fr) → Prop}
    (h : ∀ fs f, ¬ Q1 fs f → {x : E.Fr | Q fs f x}.ncard ≤ D) :
    drawsX E L M Q ≤ draws E L M Q1 * E.fr.p + D * E.fr.p ^ (L + M) := by
  classical
  have hp : Fintype.card E.Fr = E.fr.p := ZMod.card _
  unfold drawsX draws
  rw [Set.ncard_eq_toFinset_card', Set.ncard_eq_toFinset_card']
  have h1 := Finset.card_eq_sum_card_fiberwise (s := {x : ((Fin L → E.Fr) × (Fin M → E.Fr)) × E.Fr |
    Q (tapeOf x.1.1) (tapeOf x.1.2) x.2}.toFinset) (t := Finset.univ) (f := Prod.fst) (fun _ _ => Finset.mem_coe.mpr (Finset.mem_univ _))
  rw [h1, ← Finset.sum_filter_add_sum_filter_not _ (fun y : (Fin L → E.Fr) × (Fin M → E.Fr) =>
    Q1 (tapeOf y.1) (tapeOf y.2))]
  refine Nat.add_le_add ?_ ?_
  · have e : {x : (Fin L → E.Fr) × (Fin M → E.Fr) | Q1 (tapeOf x.1) (tapeOf x.2)}.toFinset =
        Finset.univ.filter fun y : (Fin L → E.Fr) × (Fin M → E.Fr) => Q1 (tapeOf y.1) (tapeOf y.2) := by
      ext x
      simp
    rw [e, ← smul_eq_mul]
    refine Finset.sum_le_card_nsmul _ _ _ fun y _ => ?_
    refine le_trans ?_ (le_of_eq (Finset.card_univ.trans hp))
    refine Finset.card_le_card_of_injOn Prod.snd (fun x _ => Finset.mem_coe.mpr (Finset.mem_univ _)) ?_
    intro x hx x' hx' hxx
    have e1 := (Finset.mem_filter.mp (Finset.mem_coe.mp hx)).2
    have e2 := (Finset.mem_filter.mp (Finset.mem_coe.mp hx')).2
    exact Prod.ext (e1.trans e2.symm) hxx
  · refine (Finset.sum_le_card_nsmul _ _ D fun y hy => ?_).trans ?_
    · have hy' := (Finset.mem_filter.mp hy).2
      refine le_trans ?_ (h _ _ hy')
      rw [Set.ncard_eq_toFinset_card']
      refine Finset.card_le_card_of_injOn Prod.snd (fun x hx => ?_) ?_
      · have e1 := Finset.mem_filter.mp (Finset.mem_coe.mp hx)
        obtain ⟨e2, rfl⟩ := e1
        rw [Set.mem_toFinset] at e2
        rw [Set.coe_toFinset]
        exact e2
      · intro x hx x' hx' hxx
        have e1 := (Finset.mem_filter.mp (Finset.mem_coe.mp hx)).2
        have e2 := (Finset.mem_filter.mp (Finset.mem_coe.mp hx')).2
        exact Prod.ext (e1.trans e2.symm) hxx
    · rw [smul_eq_mul, Nat.mul_comm]
      refine Nat.mul_le_mul_left _ ((Finset.card_le_univ _).trans (le_of_eq ?_))
      rw [Fintype.card_prod, Fintype.card_fun, Fintype.card_fun, Fintype.card_fin, Fintype.card_fin, pow_add]
      exact congrArg₂ (· * ·) (congrArg (· ^ L) hp) (congrArg (· ^ M) hp)

end Agg

namespace Agg

/-- the negated ciphertext -/
def negCt (ct : Ciphertext E) : Ciphertext E := ⟨-ct.X_r, ct.enc_chunks.map (-·), -ct.commitment⟩

/-- the strategy that outputs it -/
def negS (S : Strategy E.Fr) : Strategy E.Fr :=
  { S with x := fun i => -S.x i, chunk := fun j i => -S.chunk j i, psi := fun i => -S.psi i }

theorem comb_neg (k : ℕ → E.Fr) (P : List E.G1) : comb (fun i => -k i) P = -comb k P := by
  unfold comb
  rw [← Finset.sum_neg_distrib]
  exact Finset.sum_congr rfl fun i _ => neg_smul _ _

theorem neg_cipher (S : Strategy E.Fr) (P : List E.G1) : (negS S).cipher P = negCt (S.cipher P) := by
  unfold Strategy.cipher negCt negS
  dsimp only
  rw [comb_neg, comb_neg, map_tab]
  congr 1
  exact tab_congr fun i _ => comb_neg _ _

theorem getD_neg (l : List E.G1) (i : ℕ) : (l.map (-·)).getD i 0 = -l.getD i 0 := by
  rw [List.getD_eq_getElem?_getD, List.getD_eq_getElem?_getD, List.getElem?_map]
  cases l[i]? <;> simp

theorem neg_verifies (ct : Ciphertext E) (ek : EncryptionKey E) (hw : WellFormed ek) (h256 : ek.X.length < 256)
    (hs : ct.enc_chunks.length = ek.X.length) (h : ct.verifyCommitment ek.prepare gens.prepare = .ok ()) :
    (negCt ct).verifyCommitment ek.prepare gens.prepare = .ok () := by
  rw [verify_iff_defect ct ek gens hw h256 hs] at h
  rw [verify_iff_defect (negCt ct) ek gens hw h256 (by simpa [negCt] using hs)]
  have hd : defect ek gens.H ct = 0 := by
    by_contra hc
    rw [if_neg hc] at h
    cases h
  have e : defect ek gens.H (negCt ct) = -defect ek gens.H ct := by
    unfold defect negCt
    simp only [getD_neg, map_neg, LinearMap.neg_apply, Finset.sum_neg_distrib]
    abel
  rw [e, hd, neg_zero, if_pos rfl]

/-- a ciphertext and its negated re-randomisation -/
theorem cancel (ek : EncryptionKey E) (g : ℕ → E.G1) (m : ℕ → ℕ) (r u : E.Fr) :
    aggregate [flat (cipher ek g m r), flat (negCt (cipher ek g m (r + u)))] =
      .ok (flat (cipher ek g (fun _ => 0) (-u))) := by
  rw [aggregate_eq _ (by simp) (ek.X.length + 2) (fun v hv => by
    simp only [List.mem_cons, List.not_mem_nil, or_false] at hv
    rcases hv with rfl | rfl <;> simp [flat, cipher, negCt])]
  congr 1
  apply List.ext_getElem?
  intro i
  rw [getElem?_tab]
  have hl : ∀ c : Ciphertext E, c.enc_chunks.length = ek.X.length → (flat c).length = ek.X.length + 2 := fun c hc => by
    simp [flat, hc]
  by_cases hi : i < ek.X.length + 2
  · rw [if_pos hi, List.getElem?_eq_getElem (by rw [hl _ (by simp [cipher])]; exact hi)]
    congr 1
    rw [← List.getD_eq_getElem (d := (0 : E.G1))]
    simp only [List.map_cons, List.map_nil, List.sum_cons, List.sum_nil, add_zero]
    rcases i with _ | i
    · simp only [flat, cipher, negCt, List.getD_cons_zero]
      module
    · rcases Nat.lt_or_ge i ek.X.length with h | h
      · have e1 : ∀ c : Ciphertext E, c.enc_chunks.length = ek.X.length →
            (flat c).getD (i + 1) 0 = c.enc_chunks.getD i 0 := fun c hc => by
          simp only [flat, List.getD_cons_succ]
          rw [List.getD_append _ _ _ _ (by rw [hc]; exact h)]
        rw [e1 _ (by simp [cipher]), e1 _ (by simp [cipher, negCt]), e1 _ (by simp [cipher])]
        simp only [negCt, cipher, getD_neg]
        rw [getD_tab, getD_tab, getD_tab, if_pos h, if_pos h, if_pos h]
        module
      · obtain rfl : i = ek.X.length := by omega
        have e1 : ∀ c : Ciphertext E, c.enc_chunks.length = ek.X.length →
            (flat c).getD (ek.X.length + 1) 0 = c.commitment := fun c hc => by
          simp only [flat, List.getD_cons_succ]
          rw [List.getD_append_right _ _ _ _ (by rw [hc]), hc]
          simp
        rw [e1 _ (by simp [cipher]), e1 _ (by simp [cipher, negCt]), e1 _ (by simp [cipher])]
        simp only [negCt, cipher, zero_smul, Finset.sum_const_zero, add_smul, neg_smul]
        abel
  · rw [if_neg hi, List.getElem?_eq_none (by rw [hl _ (by simp [cipher])]; omega)]

end Agg

include hb hn hbm hal hH hd in
/-- **C100** The proofs cannot be dropped: if only commitments are checked, then for every user there is an adversary that asks
no questions and whose submission passes the check and cancels the message of this user in the sum, in every run, whatever
the honest messages are; so its contribution is not one of those of `C100_sums`. -/
theorem C100_proofs_needed (chk : Bool) (q j : ℕ) (hj : j < q) (u : E.Fr) :
    ∃ A : Prover E (ℕ → Strategy E.Fr), A.questions = 0 ∧ ∀ (F : ℕ) (ms : List E.Fr), ms.length = q →
      ∀ fs h, ¬ AggOutcome F T chk b gens others1 others2 ms 1 A fs h (fun pk ek l subs =>
        ¬ Cancels b n.toNat gens (crew others1 others2 h) j pk ek l subs) := by
  obtain ⟨S, hS⟩ := C90_rerandomiser T b n hb hn hbm hal gens hH d hd (others1.length + 1 + others2.length) (by omega)
    q j hj u 1 0 one_ne_zero
  refine ⟨.output fun _ => Agg.negS S, rfl, fun F ms hms fs f => ?_⟩
  rintro ⟨pk, keys, shares, ek, l, h', hset, hl, hno⟩
  apply hno
  obtain ⟨⟨ct0, proof0, hj0, hct⟩, hacc⟩ := hS (tape E) F fs _ pk keys shares ek (by simp; omega) hset chk (tape E) ms _ h' l
    hms hl
  obtain ⟨c0, g_i, sks, f1, hc0, hsrs, hg, hdkg⟩ : ∃ c0 g_i sks f1,
      BitsizeCheckCircuit.new (K := E.fr) b none none true = .ok c0 ∧
      generateSrs T (tape E) F fs c0.generateConstraints gens = .ok (pk, f1) ∧ getGsForEncryption pk.pk.vk = .ok g_i ∧
      dkg (crew others1 others2 f) b gens g_i pk.pk.delta_g1 pk.gamma_g1 = .ok (sks, ek) := by
    unfold setupForDkg at hset
    obtain ⟨c0, hc0, hset⟩ := Res.bind_eq_ok.mp hset
    obtain ⟨⟨pk1, f'⟩, hsrs, hset⟩ := Res.bind_eq_ok.mp hset
    dsimp only at hset
    obtain ⟨g_i, hg, hset⟩ := Res.bind_eq_ok.mp hset
    obtain ⟨⟨k1, s1, e1⟩, hk1, hset⟩ := Res.bind_eq_ok.mp hset
    simp only [Res.pure_eq, Res.ok.injEq, Prod.mk.injEq] at hset
    obtain ⟨rfl, rfl, rfl, rfl⟩ := hset
    obtain ⟨sks, hdkg⟩ := (C66_transcript_is_dkg _ b gens g_i _ _ _).mp ⟨_, _, hk1⟩
    exact ⟨c0, g_i, sks, f', hc0, hsrs, hg, hdkg⟩
  obtain ⟨n1, s, t, hn1, -, hek⟩ := fromSetup_inv (Or.inr ⟨_, sks, hdkg⟩ :
    FromSetup ek b gens g_i pk.pk.delta_g1 pk.gamma_g1)
  rw [hn] at hn1
  cases hn1
  have hX : ek.X.length = n.toNat := by rw [hek]; simp [encKey]
  have hwf : WellFormed ek := by rw [hek]; exact encKey_wf _ _ _ _ _ _ _
  obtain ⟨vs, -, -, -, -, hgood⟩ := Agg.honest hb hn hal hc0 hsrs hg hdkg hl
  obtain ⟨-, -, r, hr⟩ := hgood j ct0 proof0 hj0
  refine ⟨ct0, Agg.negCt (rerandomise ek u ct0), g_i, sks, cipher ek (fun i => g_i.getD i 0) (fun _ => 0) (-u),
    by rw [hj0]; rfl, ?_, ?_, hg, hdkg, ?_, fun hgi => ?_⟩
  · unfold submitted
    rw [getElem?_tab, if_pos (by omega)]
    simp only [Prover.choice, Option.map_some]
    rw [Agg.neg_cipher, hct]
  · rw [hr, (C77_fresh ek _ _ r u).1]
    refine Agg.neg_verifies gens _ ek hwf (by rw [hX]; exact n.toNat_lt) (by simp [cipher]) ?_
    rw [hek]
    exact cipher_verifies n s t _ _ _ gens _ _
  · rw [hr, (C77_fresh ek _ _ r u).1]
    exact Agg.cancel ek _ _ r u
  · have h0 : ∀ i, (nums (List.replicate n.toNat (0 : UInt16))).getD i 0 = 0 := fun i => by
      unfold nums
      rw [List.map_replicate, List.getD_eq_getElem?_getD, List.getElem?_replicate]
      split <;> rfl
    have := C98_says (crew others1 others2 f) b hb gens g_i _ _ sks ek hdkg hgi (List.replicate n.toNat 0)
      (by rw [List.length_replicate, hX]) (fun x hx => by
        rw [List.eq_of_mem_replicate hx]
        exact ⟨Nat.pow_pos (by omega), Nat.Prime.pos E.fr.prime⟩) (-u)
    simp only [h0] at this
    exact this

variable (F : ℕ) (hF : 0 < F) (e : ℕ)

namespace Agg

include hb hn hbm hal hG hH hd hF in
theorem facts_many (chk : Bool) (q k : ℕ) (A : Prover E (ℕ → Strategy E.Fr)) :
    ∃ c : ℕ → Contribution, (∀ i < k, (c i).Valid n.toNat b.toNat q) ∧ ∀ ms : List E.Fr, ms.length = q →
      draws E (5 + e) (1 + 2 * n.toNat + 3 * q) (fun fs h => AggOutcome F T chk b gens others1 others2 ms k A fs h
        (fun pk ek l subs => ¬ Facts T b n gens (crew others1 others2 h) ms k c pk ek l subs)) ≤
      (k * ((A.questions + 1) * (3 * d.size + 6)) + n.toNat + d.size) * E.fr.p ^ (5 + e + 2 * n.toNat + 3 * q) := by
  obtain ⟨c, hc, h⟩ := facts_one T b n hb hn hbm hal gens hG hH d hd others1 others2 chk q k A
  refine ⟨c, hc, fun ms hms => ?_⟩
  have ht := (C99_transfer T b n hn hbm gens d hd F hF e (1 + 2 * n.toNat + 3 * q) (crew others1 others2)
    (fun h r => ∃ pk keys shares ek l h', r = .ok (pk, keys, shares, ek) ∧
      encryptAll T chk (tape E) ek pk b ms (fun i => h (1 + 2 * ek.X.length + i)) = .ok (l, h') ∧
      ¬ Facts T b n gens (crew others1 others2 h) ms k c pk ek l
        (submitted k A (dkgView1 gens pk keys shares ek l) (dkgView2 gens pk keys ek l)))).1
  rw [show 4 + e + (1 + 2 * n.toNat + 3 * q) = 5 + e + 2 * n.toNat + 3 * q by omega,
    show 5 + (1 + 2 * n.toNat + 3 * q) = 6 + 2 * n.toNat + 3 * q by omega] at ht
  exact Tapes.scale e ht (h ms hms) (by omega)

end Agg

include hb hn hbm hal hG hH hd hF in
/-- **C100** Verified aggregation.  The key is generated by any number of parties, all but one of which the adversary
controls; it sees everything published and the ciphertexts and proofs of `q` honest users, asks up to `Q` questions and
submits `k` ciphertexts with proofs.  Its contributions are fixed in advance: for each submission there is a vector of chunks
below `2^b`, or an honest user, such that whatever the honest messages are, on all but a
`(k (Q + 1) (3 size + 6) + n + size) / p` fraction of the draws the honest submissions are accepted, and any selection of
accepted submissions adds up to a ciphertext that every destination reads as the sums of the contributions. -/
theorem C100_sums (chk : Bool) (q k : ℕ) (A : Prover E (ℕ → Strategy E.Fr)) :
    ∃ c : ℕ → Contribution, (∀ i < k, (c i).Valid n.toNat b.toNat q) ∧ ∀ ms : List E.Fr, ms.length = q →
      draws E (5 + e) (1 + 2 * n.toNat + 3 * q) (fun fs h => AggOutcome F T chk b gens others1 others2 ms k A fs h
        (fun pk ek l subs => ¬ HonestSums b n.toNat gens (crew others1 others2 h) ms k c pk ek l subs)) ≤
      (k * ((A.questions + 1) * (3 * d.size + 6)) + n.toNat + d.size) * E.fr.p ^ (5 + e + 2 * n.toNat + 3 * q) := by
  obtain ⟨c, hc, h⟩ := Agg.facts_many T b n hb hn hbm hal gens hG hH d hd others1 others2 F hF e chk q k A
  refine ⟨c, hc, fun ms hms => (Tapes.draws_mono fun fs f hf => ?_).trans (h ms hms)⟩
  exact Agg.mono (fun pk ek l subs h1 h2 => h1 (Agg.Facts.sums hn h2)) hf

include hb hn hbm hal hG hH hd hF in
/-- **C100** The same when the aggregator checks all commitments at once with the powers of a challenge drawn after the
submissions: with the same contributions, on all but a `(k (Q + 1) (3 size + 6) + n + size + q + k - 1) / p` fraction of the
draws and challenges, if the batch is accepted then every submission in it is individually acceptable, and the sums of any of
them are delivered. -/
theorem C100_batch (chk : Bool) (q k : ℕ) (A : Prover E (ℕ → Strategy E.Fr)) :
    ∃ c : ℕ → Contribution, (∀ i < k, (c i).Valid n.toNat b.toNat q) ∧ ∀ ms : List E.Fr, ms.length = q →
      drawsX E (5 + e) (1 + 2 * n.toNat + 3 * q) (fun fs h x => AggOutcome F T chk b gens others1 others2 ms k A fs h
        (fun pk ek l subs => BatchAccepted gens pk ek x (l ++ subs) ∧
          ¬ ((∀ p ∈ l ++ subs, Accepted gens pk ek p.1 p.2) ∧
            HonestSums b n.toNat gens (crew others1 others2 h) ms k c pk ek l subs))) ≤
      (k * ((A.questions + 1) * (3 * d.size + 6)) + n.toNat + d.size + (q + k - 1)) *
        E.fr.p ^ (6 + e + 2 * n.toNat + 3 * q) := by
  obtain ⟨c, hc, h⟩ := C100_sums T b n hb hn hbm hal gens hG hH d hd others1 others2 F hF e chk q k A
  refine ⟨c, hc, fun ms hms => ?_⟩
  refine (Agg.challenge (Q1 := fun fs h => AggOutcome F T chk b gens others1 others2 ms k A fs h
        (fun pk ek l subs => ¬ HonestSums b n.toNat gens (crew others1 others2 h) ms k c pk ek l subs))
      (D := q + k - 1) fun fs f hgood => ?_).trans ?_
  · by_cases hex : ∃ pk keys shares ek l h', setupForDkg T (tape E) F fs b gens (crew others1 others2 f) =
        .ok (pk, keys, shares, ek) ∧
        encryptAll T chk (tape E) ek pk b ms (fun i => f (1 + 2 * ek.X.length + i)) = .ok (l, h')
    · obtain ⟨pk, keys, shares, ek, l, h', hset, hl⟩ := hex
      obtain ⟨g_i, hg, sks, hdkg⟩ : ∃ g_i, getGsForEncryption pk.pk.vk = .ok g_i ∧ ∃ sks,
          dkg (crew others1 others2 f) b gens g_i pk.pk.delta_g1 pk.gamma_g1 = .ok (sks, ek) := by
        unfold setupForDkg at hset
        obtain ⟨c0, -, hset⟩ := Res.bind_eq_ok.mp hset
        obtain ⟨⟨pk1, f'⟩, hsrs, hset⟩ := Res.bind_eq_ok.mp hset
        dsimp only at hset
        obtain ⟨g_i, hg, hset⟩ := Res.bind_eq_ok.mp hset
        obtain ⟨⟨k1, s1, e1⟩, hk1, hset⟩ := Res.bind_eq_ok.mp hset
        simp only [Res.pure_eq, Res.ok.injEq, Prod.mk.injEq] at hset
        obtain ⟨rfl, rfl, rfl, rfl⟩ := hset
        obtain ⟨sks, hdkg⟩ := (C66_transcript_is_dkg _ b gens g_i _ _ _).mp ⟨_, _, hk1⟩
        exact ⟨g_i, hg, sks, hdkg⟩
      obtain ⟨n1, s, t, hn1, -, hek⟩ := fromSetup_inv (Or.inr ⟨_, sks, hdkg⟩ :
        FromSetup ek b gens g_i pk.pk.delta_g1 pk.gamma_g1)
      have hX : ek.X.length = n1.toNat := by rw [hek]; simp [encKey]
      have hwf : WellFormed ek := by rw [hek]; exact encKey_wf _ _ _ _ _ _ _
      generalize hsubs : submitted k A (dkgView1 gens pk keys shares ek l) (dkgView2 gens pk keys ek l) = subs
      have hlen : ((l ++ subs).map (·.1)).length ≤ q + k := by
        rw [List.length_map, List.length_append, ← hsubs]
        have h1 : l.length = q := by
          rw [← hms]
          exact Agg.len_encryptAll hl
        unfold submitted
        rw [length_tab, h1]
      refine le_trans ?_ ((Agg.batch_fiber gens ek hwf (by rw [hX]; exact n1.toNat_lt) ((l ++ subs).map (·.1))).trans
        (Nat.sub_le_sub_right hlen 1))
      refine Set.ncard_le_ncard (fun x hx => ?_) (Set.toFinite _)
      obtain ⟨pk', keys', shares', ek', l', h'', hset', hl', ⟨hp, hbt⟩, hno⟩ := hx
      rw [hset] at hset'
      simp only [Res.ok.injEq, Prod.mk.injEq] at hset'
      obtain ⟨rfl, rfl, rfl, rfl⟩ := hset'
      rw [hl] at hl'
      simp only [Res.ok.injEq, Prod.mk.injEq] at hl'
      obtain ⟨rfl, rfl⟩ := hl'
      rw [hsubs] at hp hbt hno
      refine ⟨by rw [List.length_map]; exact hbt, ?_⟩
      by_contra hall
      refine hno ⟨fun p hp' => ?_, ?_⟩
      · have h1 : p.1.verifyCommitment ek.prepare gens.prepare = .ok () := by
          by_contra hc'
          exact hall ⟨p.1, List.mem_map.mpr ⟨p, hp', rfl⟩, hc'⟩
        unfold Accepted Ciphertext.verifyCommitmentAndProof
        rw [h1, Res.ok_bind]
        exact hp p hp'
      · by_contra hc'
        refine hgood ⟨pk, keys, shares, ek, l, h', hset, hl, ?_⟩
        rw [hsubs]
        exact hc'
    · have : {x : E.Fr | AggOutcome F T chk b gens others1 others2 ms k A fs f
          (fun pk ek l subs => BatchAccepted gens pk ek x (l ++ subs) ∧
            ¬ ((∀ p ∈ l ++ subs, Accepted gens pk ek p.1 p.2) ∧
              HonestSums b n.toNat gens (crew others1 others2 f) ms k c pk ek l subs))} = ∅ := by
        refine Set.eq_empty_of_forall_notMem fun x hx => ?_
        obtain ⟨pk, keys, shares, ek, l, h', hset, hl, -⟩ := hx
        exact hex ⟨pk, keys, shares, ek, l, h', hset, hl⟩
      rw [this, Set.ncard_empty]
      omega
  · refine (Nat.add_le_add_right (Nat.mul_le_mul_right _ (h ms hms)) _).trans (le_of_eq ?_)
    rw [show 5 + e + (1 + 2 * n.toNat + 3 * q) = 5 + e + 2 * n.toNat + 3 * q + 1 by omega,
      show 6 + e + 2 * n.toNat + 3 * q = 5 + e + 2 * n.toNat + 3 * q + 1 by omega]
    ring

end

section
variable (T : FftCfg E.Fr) (hE : OnBls E T) (b n : UInt8) (hb : Supported b)
  (hn : chunksCount E.fr b = .ok n) (gens : EncryptionGens E) (hG : gens.G ≠ 0) (hH : gens.H ≠ 0)
  (others1 others2 : List (Party E)) (F : ℕ) (hF : 0 < F) (e : ℕ)

include hE hb hn hG hH hF in
/-- **C100** On BLS12-381 verified aggregation fails on at most `k (Q + 1) + 1` in `2^237` of the draws. -/
theorem C100_bls_sums (chk : Bool) (q k : ℕ) (A : Prover E (ℕ → Strategy E.Fr)) :
    ∃ c : ℕ → Contribution, (∀ i < k, (c i).Valid n.toNat b.toNat q) ∧ ∀ ms : List E.Fr, ms.length = q →
      2 ^ 237 * draws E (5 + e) (1 + 2 * n.toNat + 3 * q) (fun fs h => AggOutcome F T chk b gens others1 others2 ms k A fs h
        (fun pk ek l subs => ¬ HonestSums b n.toNat gens (crew others1 others2 h) ms k c pk ek l subs)) ≤
      (k * (A.questions + 1) + 1) * E.fr.p ^ (5 + e + (1 + 2 * n.toNat + 3 * q)) := by
  obtain ⟨n', d, hn', hd, -, hn64, hs, hs'⟩ := hE.small hb
  obtain rfl : n' = n := by rw [hn] at hn'; cases hn'; rfl
  have h17 : 2 ^ 237 * (4 * 2 ^ 15 + 6 + 64) ≤ blsR := by decide +kernel
  have hp : E.fr.p = blsR := hE.prime
  have hc : 2 ^ 237 * (4 * d.size + 6 + n'.toNat) ≤ E.fr.p :=
    le_trans (Nat.mul_le_mul_left _ (by omega)) (h17.trans (le_of_eq hp.symm))
  have e1 : 5 + e + (1 + 2 * n'.toNat + 3 * q) = (5 + e + 2 * n'.toNat + 3 * q) + 1 := by omega
  have hle : k * ((A.questions + 1) * (3 * d.size + 6)) + n'.toNat + d.size ≤
      (k * (A.questions + 1) + 1) * (4 * d.size + 6 + n'.toNat) := by
    have h1 : k * ((A.questions + 1) * (3 * d.size + 6)) ≤ k * (A.questions + 1) * (4 * d.size + 6 + n'.toNat) := by
      rw [← Nat.mul_assoc]
      exact Nat.mul_le_mul_left _ (by omega)
    rw [Nat.add_mul (k * (A.questions + 1)), Nat.one_mul]
    omega
  obtain ⟨c, hcv, h⟩ := C100_sums T b n' hb hn (hE.bits hb) (hE.aligned hb) gens hG hH d hd others1 others2 F hF e chk q k A
  refine ⟨c, hcv, fun ms hms => ?_⟩
  exact (OnBls.scaleMany hc ((h ms hms).trans (Nat.mul_le_mul_right _ hle))).trans (le_of_eq (by rw [e1]))

include hE hb hn hG hH hF in
/-- **C100** and with batched commitments on at most `k (Q + 1) + 1 + q + k` in `2^237` of the draws and challenges. -/
theorem C100_bls_batch (chk : Bool) (q k : ℕ) (A : Prover E (ℕ → Strategy E.Fr)) :
    ∃ c : ℕ → Contribution, (∀ i < k, (c i).Valid n.toNat b.toNat q) ∧ ∀ ms : List E.Fr, ms.length = q →
      2 ^ 237 * drawsX E (5 + e) (1 + 2 * n.toNat + 3 * q) (fun fs h x =>
        AggOutcome F T chk b gens others1 others2 ms k A fs h (fun pk ek l subs =>
          BatchAccepted gens pk ek x (l ++ subs) ∧ ¬ ((∀ p ∈ l ++ subs, Accepted gens pk ek p.1 p.2) ∧
            HonestSums b n.toNat gens (crew others1 others2 h) ms k c pk ek l subs))) ≤
      (k * (A.questions + 1) + 1 + (q + k)) * E.fr.p ^ (5 + e + (1 + 2 * n.toNat + 3 * q) + 1) := by
  obtain ⟨n', d, hn', hd, -, hn64, hs, hs'⟩ := hE.small hb
  obtain rfl : n' = n := by rw [hn] at hn'; cases hn'; rfl
  have h17 : 2 ^ 237 * (4 * 2 ^ 15 + 6 + 64) ≤ blsR := by decide +kernel
  have hp : E.fr.p = blsR := hE.prime
  have hc : 2 ^ 237 * (4 * d.size + 6 + n'.toNat) ≤ E.fr.p :=
    le_trans (Nat.mul_le_mul_left _ (by omega)) (h17.trans (le_of_eq hp.symm))
  have e1 : 5 + e + (1 + 2 * n'.toNat + 3 * q) + 1 = (6 + e + 2 * n'.toNat + 3 * q) + 1 := by omega
  have hle : k * ((A.questions + 1) * (3 * d.size + 6)) + n'.toNat + d.size + (q + k - 1) ≤
      (k * (A.questions + 1) + 1 + (q + k)) * (4 * d.size + 6 + n'.toNat) := by
    have h1 : k * ((A.questions + 1) * (3 * d.size + 6)) ≤ k * (A.questions + 1) * (4 * d.size + 6 + n'.toNat) := by
      rw [← Nat.mul_assoc]
      exact Nat.mul_le_mul_left _ (by omega)
    have h2 : (q + k) * 1 ≤ (q + k) * (4 * d.size + 6 + n'.toNat) := Nat.mul_le_mul_left _ (by omega)
    rw [Nat.add_mul (k * (A.questions + 1) + 1), Nat.add_mul (k * (A.questions + 1)), Nat.one_mul]
    omega
  obtain ⟨c, hcv, h⟩ := C100_batch T b n' hb hn (hE.bits hb) (hE.aligned hb) gens hG hH d hd others1 others2 F hF e chk q k A
  refine ⟨c, hcv, fun ms hms => ?_⟩
  exact (OnBls.scaleMany hc ((h ms hms).trans (Nat.mul_le_mul_right _ hle))).trans (le_of_eq (by rw [e1]))

end
end

/-- Every adversary meets the hypotheses: 8-bit chunks on the model's own BLS12-381 domains, two parties of the adversary, two
honest users, three submissions. -/
example (o1 o2 : Party (Engine.scalar blsFr)) (A : Prover (Engine.scalar blsFr) (ℕ → Strategy (Engine.scalar blsFr).Fr)) :=
  C100_bls_sums (E := Engine.scalar blsFr) blsFft C95_instance 8 32 (.inr (.inl rfl)) chunksCount_bls8
    ⟨(1 : ZMod blsFr.p), (2 : ZMod blsFr.p)⟩ (by decide +kernel) (by decide +kernel) [o1] [o2] 3 (by decide) 2 true 2 3 A

example (o1 o2 : Party (Engine.scalar blsFr)) (A : Prover (Engine.scalar blsFr) (ℕ → Strategy (Engine.scalar blsFr).Fr)) :=
  C100_bls_batch (E := Engine.scalar blsFr) blsFft C95_instance 8 32 (.inr (.inl rfl)) chunksCount_bls8
    ⟨(1 : ZMod blsFr.p), (2 : ZMod blsFr.p)⟩ (by decide +kernel) (by decide +kernel) [o1] [o2] 3 (by decide) 2 true 2 3 A

/-- a selection of 257 accepted submissions of 8-bit chunks meets the overflow conditions at 16 bits -/
example : (16 : UInt8).toNat ≤ 16 ∧ 257 * (2 ^ (8 : UInt8).toNat - 1) < 2 ^ (16 : UInt8).toNat ∧
    257 * (2 ^ (8 : UInt8).toNat - 1) < blsFr.p := by decide +kernel

end Verif
