import Verif.Lemmas.PrepFull5

/-! # Undetected dangerous faults of fully verified preparation circuits -/

namespace Verif.SP
open Verif Verif.Spec
variable {n : ℕ} {R : Type} [CommRing R]

/-! ### Measuring again -/

/-- The qubit is 0. -/
def Sup (q : VQ) (φ : State VQ R) : Prop := ∀ y : VQ → ZMod 2, y q ≠ 0 → φ y = 0

theorem sup_step (s : R) (out : VC → ZMod 2) (q : VQ) (φ : State VQ R) (h : Sup q φ) (i : Instr VQ VC) (hi : q ∉ i.qubits) :
    Sup q (step s out φ i) := by
  intro y hy
  cases i with
  | h p =>
    have hp : q ≠ p := fun e => hi (by simp [Instr.qubits, e])
    simp only [step]
    rw [h _ (by rw [Function.update_of_ne hp]; exact hy), h _ (by rw [Function.update_of_ne hp]; exact hy)]
    simp
  | cx a b =>
    have hp : q ≠ b := fun e => hi (by simp [Instr.qubits, e])
    simp only [step]
    exact h _ (by rw [Function.update_of_ne hp]; exact hy)
  | measure p b =>
    simp only [step]
    rw [h y hy]; simp

theorem sup_run (s : R) (out : VC → ZMod 2) (q : VQ) (l : List (Instr VQ VC)) (φ : State VQ R) (h : Sup q φ)
    (hl : ∀ i ∈ l, q ∉ i.qubits) : Sup q (run s out l φ) := by
  induction l generalizing φ with
  | nil => exact h
  | cons i l ih =>
    rw [run_cons]
    exact ih _ (sup_step s out q φ h i (hl i (by simp))) fun j hj => hl j (by simp [hj])

theorem sup_measure (s : R) (q : VQ) (b : VC) (φ : State VQ R) : Sup q (step s (fun _ => 0) φ (.measure q b)) := by
  intro y hy
  simp [step, hy]

theorem measure_sup (s : R) (q : VQ) (b : VC) (φ : State VQ R) (h : Sup q φ) : step s (fun _ => 0) φ (.measure q b) = φ := by
  funext y
  simp only [step]
  split
  · rfl
  · rename_i hy
    exact (h y hy).symm

theorem measures_sup (s : R) (l : List (VQ × VC)) (φ : State VQ R) (h : ∀ p ∈ l, Sup p.1 φ) :
    run s (fun _ => 0) (l.map fun p => .measure p.1 p.2) φ = φ := by
  induction l with
  | nil => rfl
  | cons p l ih =>
    rw [List.map_cons, run_cons, measure_sup s p.1 p.2 φ (h p (by simp))]
    exact ih fun q hq => h q (by simp [hq])

theorem runNoisy_clean (s : R) (out : VC → ZMod 2) (l : List (Instr VQ VC)) (φ : State VQ R) :
    runNoisy s out (l.map clean) φ = run s out l φ := by
  induction l generalizing φ with
  | nil => rfl
  | cons i l ih =>
    rw [List.map_cons, runNoisy_cons, run_cons]
    have : applyOp (clean i).after (step s out (applyOp (clean i).before φ) (clean i).instr) = step s out φ i := by
      show applyOp 0 (step s out (applyOp 0 φ) i) = _
      rw [applyOp_zero, applyOp_zero]
    rw [this, ih]

variable (z : Bool) (c : PrepCircuit n) (t : ℕ) (m1 m2 : List (Vec n)) (S T : List (Vec n))
  (hnd : c.hadamards.Nodup) (hne : ∀ g ∈ c.cnots, g.1 ≠ g.2) (hS : Prepares z c S)
  (h1 : ∀ m ∈ m1, ∀ r ∈ S, dot r m = 0) (h2 : ∀ m ∈ m2, m ∈ rowSpan S) (W : Bool → ℤ)

/-- The measured ancillas of the second round stay 0. -/
theorem second_sup (s : R) (hf : FlagsOk t m2) (p : Vec n × ℕ) (hp : p ∈ m2.zipIdx) (φ : State VQ R) :
    Sup (ranc (!z) p.2) (run s (fun _ => 0) (gadsInstrs (secondGads (!z) t m2)) φ) := by
  obtain ⟨A, B, e⟩ := List.append_of_mem hp
  have hok := secondGads_ok (!z) t m2 hf
  have hg : secondGads (!z) t m2 = A.map (fun p => mkGad (!z) (flagSteps t p.1) p) ++
      mkGad (!z) (flagSteps t p.1) p :: B.map (fun p => mkGad (!z) (flagSteps t p.1) p) := by
    rw [secondGads, e, List.map_append, List.map_cons]
  set x := mkGad (!z) (flagSteps t p.1) p with hx
  have hsep : ∀ y ∈ B.map (fun p => mkGad (!z) (flagSteps t p.1) p), Sep x y := by
    have := hok.sep
    rw [hg, List.pairwise_append] at this
    exact (List.pairwise_cons.1 this.2.1).1
  have hokB : ∀ y ∈ B.map (fun p => mkGad (!z) (flagSteps t p.1) p), y.Ok := by
    intro y hy
    exact hok.ok y (by rw [hg]; simp only [List.mem_append, List.mem_cons]; exact .inr (.inr hy))
  rw [hg, gadsInstrs, List.flatMap_append, List.flatMap_cons, run_append, run_append]
  refine sup_run s _ _ _ _ ?_ ?_
  · have : ∃ l, x.instrs = l ++ [.measure (ranc (!z) p.2) (rbit (!z) p.2)] := ⟨_, rfl⟩
    obtain ⟨l, hl⟩ := this
    rw [hl, run_append]
    exact sup_measure s _ (rbit (!z) p.2) _
  · intro i hi hq
    obtain ⟨y, hy, hi⟩ := List.mem_flatMap.1 hi
    have hown : x.Own (ranc (!z) p.2) := .inl rfl
    rcases Gad.instr_qubits (hokB y hy) hi hq with h | ⟨j, h⟩
    · exact (hsep y hy).1 _ hown h
    · exact ranc_ne_data _ _ _ h

theorem again_id (s : R) (hf : FlagsOk t m2) (φ : State VQ R) :
    run s (fun _ => 0) (againZ z m2.length) (run s (fun _ => 0) (gadsInstrs (secondGads (!z) t m2)) φ) =
      run s (fun _ => 0) (gadsInstrs (secondGads (!z) t m2)) φ := by
  cases z
  · have := measures_sup s ((List.range m2.length).map fun i => (VQ.zanc i, VC.zc i))
      (run s (fun _ => 0) (gadsInstrs (secondGads (!false) t m2)) φ) (by
        intro q hq
        obtain ⟨i, hi, rfl⟩ := List.mem_map.1 hq
        obtain ⟨p, hp, rfl, -⟩ := exists_zipIdx (List.mem_range.1 hi)
        exact second_sup false t m2 s hf p hp φ)
    rw [List.map_map] at this
    exact this
  · rfl

/-! ### The criterion for a fault that breaks the tolerance -/

include hnd hne hS in
theorem prepares_other (hTS : ∀ v, v ∈ rowSpan T ↔ ∀ r ∈ S, dot r v = 0) : Prepares (!z) c T := by
  have hTT : ∀ v, (∀ r ∈ T, dot r v = 0) ↔ v ∈ rowSpan S := by
    intro v
    constructor
    · intro h
      apply mem_rowSpan_of_orthogonal_kerOf
      intro u hu
      have hu' : u ∈ rowSpan T := (hTS u).2 fun r hr => hu r hr
      exact dot_eq_zero_of_mem_rowSpan (fun b hb => h b hb) hu'
    · intro hv r hr
      have hr' := (hTS r).1 (mem_rowSpan_of_mem hr)
      rw [dot_comm]
      exact dot_eq_zero_of_mem_rowSpan (fun b hb => hr' b hb) hv
  cases z
  · refine ⟨fun v => ?_, fun v => ?_⟩
    · rw [hTS]; exact hS.2 v
    · rw [hTT]; exact hS.1 v
  · refine ⟨fun v => ?_, fun v => ?_⟩
    · rw [hTS]; exact hS.2 v
    · rw [hTT]; exact hS.1 v

include hnd hne hS h1 h2 in
theorem not_tolerates_of (s : R) (hs : 2 * s * s = 1) [Nontrivial R] (hf : FlagsOk t m2) (l : List (Instr VQ VC))
    (hl : l = prepInstrs c ++ (bothRounds z t m1 m2 ++ againZ z m2.length))
    (N₁ : List (NoisyInstr VQ VC)) (hN1 : N₁.map NoisyInstr.instr = prepInstrs c ++ firstRound z m1) (hfa : AllFaults N₁)
    (hcnt : faultCount N₁ ≤ 1) (F : Frame VQ VC) (hF : F = prop (gadsInstrs (secondGads (!z) t m2)) (noisyFrame N₁ 0))
    (hbits : ∀ b ∈ bitsOf (bothRounds z t m1 m2), F.2 b = 0) (k : Bool) (U : List (Vec n)) (hU : Prepares k c U)
    (hd : Dangerous U (W k) (tp n k F)) :
    ¬ ToleratesOneFaultBoth s (fun i : Fin n => VQ.data i) (W true) (W false) l (usedQubits (fun i : Fin n => VQ.data i) l) := by
  intro hft
  set sec := gadsInstrs (secondGads (!z) t m2) with hsec
  set B := (bothMeas z t m1 m2).flatMap Meas.start with hB
  set N₀ := N₁ ++ sec.map clean with hN0def
  have hN0 : N₀.map NoisyInstr.instr = prepInstrs c ++ bothRounds z t m1 m2 := by
    rw [hN0def, List.map_append, hN1, map_clean, bothRounds, List.append_assoc]
  have hNi : (N₀ ++ (againZ z m2.length).map clean).map NoisyInstr.instr = l := by
    rw [List.map_append, hN0, map_clean, hl, List.append_assoc]
  have hNf : AllFaults (N₀ ++ (againZ z m2.length).map clean) := by
    intro L hL
    rw [hN0def, List.mem_append, List.mem_append] at hL
    rcases hL with (hL | hL) | hL
    · exact hfa L hL
    · exact allFaults_clean _ L hL
    · exact allFaults_clean _ L hL
  have hNc : faultCount (N₀ ++ (againZ z m2.length).map clean) ≤ 1 := by
    rw [hN0def, faultCount_append, faultCount_append, faultCount_clean, faultCount_clean]; omega
  have hFr : noisyFrame N₀ 0 = F := by
    rw [hN0def, noisyFrame_append, noisyFrame_clean, hF]
  obtain ⟨b, hrun⟩ := noisy_run s (fun _ => 0) N₀ (withBits B (base n R))
    (by
      intro L hL
      refine valid_both z c t m1 m2 hne hf L.instr ?_
      rw [← hN0]; exact List.mem_map_of_mem hL)
    (by rw [hN0]; exact bits_both_nodup z c t m1 m2 hf)
  rw [hN0, hB, run_full z c t m1 m2 S hnd hne hS h1 h2 s hs _ hf, ← hB, hFr, if_pos (by simpa using hbits)] at hrun
  have hfull : runNoisy s (fun _ => 0) (N₀ ++ (againZ z m2.length).map clean)
      (zeros (usedQubits (fun i : Fin n => VQ.data i) l)) = runNoisy s (fun _ => 0) N₀ (withBits B (base n R)) := by
    rw [zeros_used z c t m1 m2 hf l hl, ← hB, runNoisy_append, runNoisy_clean, hN0def, runNoisy_append, runNoisy_clean, hsec,
      again_id z t m2 s hf]
  set Φ : State VQ R := withBits B (prepared s c) with hΦ
  have hB0 : ∀ p ∈ B, p.2 = 0 ∧ ∀ i, p.1 ≠ VQ.data i := by
    intro p hp
    refine ⟨?_, start_not_data z t m1 m2 p hp⟩
    obtain ⟨g, -, hp⟩ := List.mem_flatMap.1 hp
    simp only [Meas.start, List.mem_cons, List.mem_map] at hp
    rcases hp with rfl | ⟨f, -, rfl⟩ <;> rfl
  have hinvol : ∀ e : PauliErr VQ, applyOp e (applyOp e Φ) = fun y => (sgn (zdot e.2 e.1) : R) * Φ y := by
    intro e
    rw [applyOp_add]
    have : e + e = 0 := by ext q <;> simp [two_self]
    rw [this, applyOp_zero]
  have hΦ0 : Φ (fun _ => 0) = s ^ c.hadamards.length := by
    rw [hΦ, withBits, if_pos]
    · exact prepared_zero s c hnd _ rfl
    · intro p hp
      exact (hB0 p hp).1.symm
  have hΦne : Φ ≠ fun _ => 0 := by
    intro h0
    have hsu : IsUnit (s ^ c.hadamards.length) :=
      IsUnit.pow _ ⟨⟨s, 2 * s, by linear_combination hs, by linear_combination hs⟩, rfl⟩
    rw [h0] at hΦ0
    exact hsu.ne_zero hΦ0.symm
  have hcancel : ∀ (b : ZMod 2) (φ χ : State VQ R), (fun y => (sgn b : R) * φ y) = χ → φ = fun y => (sgn b : R) * χ y := by
    intro b φ χ h
    subst h
    funext y
    linear_combination (-φ y) * sgn_sq (R := R) b
  rcases hft _ hNi hNf hNc with h0 | ⟨b', e, hwx, hwz, hrun'⟩
  · apply hΦne
    rw [hfull, hrun] at h0
    have h1 := hcancel b _ _ h0
    have h2 := hinvol F.1
    rw [h1] at h2
    have h3 := hcancel _ _ _ h2.symm
    rw [h3]
    funext y
    simp [applyOp]
  · rw [hfull, run_full_zero z c t m1 m2 S hnd hne hS h1 h2 s hs hf l hl, ← hB, ← hΦ, hrun] at hrun'
    have hwt : (wt (tp n k (e, 0)) : ℤ) ≤ W k := by
      cases k
      · exact hwz
      · exact hwx
    have h1 := hcancel b _ _ hrun'
    have h2 := hinvol e
    have h3 : applyOp e (applyOp F.1 Φ) = fun y => (sgn b : R) * ((sgn b' : R) * ((sgn (zdot e.2 e.1) : R) * Φ y)) := by
      rw [h1, applyOp_smul, applyOp_smul, h2]
    rw [applyOp_add] at h3
    have h4 := hcancel _ _ _ h3
    have h5 := stab_of_eigen_bits k c U hnd hne hU s hs B hB0 (e + F.1) (zdot F.1.2 e.1 + b + b' + zdot e.2 e.1) (by
      rw [← hΦ, h4]
      funext y
      rw [sgn_add, sgn_add, sgn_add]; ring)
    have h6 : tp n k (e + F.1, 0) = tp n k (e, 0) + tp n k F := by
      funext j; cases k <;> rfl
    rw [h6] at h5
    have := hd (tp n k (e, 0)) (by rw [Equivalent, add_comm]; exact h5)
    omega

/-! ### Undetected faults of the preparation -/

/-- A frame that is clean on the qubits of the second round passes it. -/
theorem second_pass (hf : FlagsOk t m2) (G : Frame VQ VC)
    (hclean : CleanL (secondGads (!z) t m2) G) (hb : ∀ b, b ∉ bitsOf (firstRound z m1) → G.2 b = 0) :
    (∀ k, tp n k (prop (gadsInstrs (secondGads (!z) t m2)) G) = tp n k G) ∧
    ∀ b ∈ bitsOf (bothRounds z t m1 m2), (∀ p ∈ m1.zipIdx, G.2 (rbit z p.2) = 0) → (∀ m ∈ m2, dot m (tp n (!z) G) = 0) →
      (prop (gadsInstrs (secondGads (!z) t m2)) G).2 b = 0 := by
  have hb' : ∀ k, G.2 (rbit (!z) k) = 0 := by
    intro k
    apply hb
    rw [bitsOf_firstRound]
    intro hm
    obtain ⟨j, -, hj⟩ := List.mem_map.1 hm
    cases z <;> simp [rbit] at hj
  have hbf : ∀ k j, G.2 (rfbit (!z) k j) = 0 := by
    intro k j
    apply hb
    rw [bitsOf_firstRound]
    intro hm
    obtain ⟨j, -, hj⟩ := List.mem_map.1 hm
    cases z <;> simp [rbit, rfbit] at hj
  obtain ⟨a1, a2, a3⟩ := through_second z t m2 hf G hclean hb'
  obtain ⟨-, c2, -⟩ := clean_list (secondGads_ok (!z) t m2 hf) G hclean
  refine ⟨a1, ?_⟩
  intro b hbm hu1 hu2
  obtain ⟨g, hg, hbg⟩ := (mem_bits_both z t m1 m2 hf b).1 hbm
  simp only [bothMeas, List.mem_append, List.mem_map] at hg
  rcases hg with ⟨p, hp, rfl⟩ | ⟨p, hp, rfl⟩
  · rw [measK_bit, (measK_noflags _ _ _).2] at hbg
    simp only [List.not_mem_nil, or_false] at hbg
    rw [hbg, a2]
    exact hu1 p hp
  · rw [measK_bit, measK_fbits] at hbg
    rcases hbg with rfl | hbg
    · rw [a3 p hp]
      exact hu2 _ (mem_zipIdx_fst hp).1
    · obtain ⟨j, -, rfl⟩ := List.mem_map.1 hbg
      have := c2 (mkGad (!z) (flagSteps t p.1) p) (List.mem_map_of_mem hp) j
      exact this.trans (hbf _ _)

/-- Errors of the data register pass both rounds; the flags stay 0. -/
theorem data_pass (hf : FlagsOk t m2) (F : Frame VQ VC) (hF : DataOnly n F) :
    (∀ k, tp n k (prop (bothRounds z t m1 m2) F) = tp n k F) ∧
    ∀ b ∈ bitsOf (bothRounds z t m1 m2), (∀ m ∈ m1, dot m (tp n z F) = 0) → (∀ m ∈ m2, dot m (tp n (!z) F) = 0) →
      (prop (bothRounds z t m1 m2) F).2 b = 0 := by
  have hclean0 : ∀ q, (∀ i : Fin n, q ≠ .data i) → F.1.1 q = 0 ∧ F.1.2 q = 0 := by
    intro q hq
    apply not_acts
    intro ha
    obtain ⟨i, hi⟩ := hF.1 q ha
    exact hq i hi
  have hcl1 : CleanL (firstGads z m1) F := fun q hq => hclean0 q fun i e => ownL_not_data (firstGads_ok z m1) i (e ▸ hq)
  obtain ⟨d1, -, -⟩ := clean_list (firstGads_ok z m1) F hcl1
  have hfst := firstRound_fst z m1 F
  have htp : ∀ k, tp n k (prop (firstRound z m1) F) = tp n k F := by
    intro k
    rw [tp_fst k hfst]
    funext i
    have := d1 (.data i) (ownL_not_data (firstGads_ok z m1) i)
    simp only [tp, this.1, this.2]
  have hclean : CleanL (secondGads (!z) t m2) (prop (firstRound z m1) F) := by
    intro p hp
    have := prop_qubit (firstRound z m1) F p fun j hj => own_not_first z t m1 m2 hj hp
    rw [this.1, this.2]
    exact hclean0 p fun i e => by
      subst e
      obtain ⟨k, h | ⟨_, h⟩⟩ := own_second z t m2 hp <;> cases z <;> simp [ranc, rflag] at h
  obtain ⟨e1, e2⟩ := second_pass z t m1 m2 hf _ hclean (by
    intro b hb
    rw [prop_bit _ _ _ hb, hF.2]; rfl)
  rw [bothRounds, prop_append]
  refine ⟨fun k => by rw [e1, htp], fun b hb hu1 hu2 => e2 b hb ?_ (by rw [htp]; exact hu2)⟩
  intro p hp
  rw [firstRound_bits z m1 F hF p hp]
  exact hu1 _ (mem_zipIdx_fst hp).1

end Verif.SP
