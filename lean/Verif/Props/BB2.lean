import Verif.Lemmas.BBCheck72
import Verif.Lemmas.BBCheck90
import Verif.Lemmas.BBCheck108
import Verif.Lemmas.BBCheck144
import Verif.Lemmas.BBCheck288
import Verif.Props.BB
import Verif.Props.NamedCodes

/-! # C71: parameters of the bivariate bicycle codes

The distances are established by a search whose soundness is proved (`Lemmas/SparseSearch`, `Lemmas/SparseDistance`) and that the kernel
evaluates (`Lemmas/BBCheck*`): every undetected error of small weight is a product of checks. -/

namespace Verif.BB
open Verif Verif.CSS Verif.Named Verif.Sparse

/-- What is known of the masks is known of the code the constructor returns. -/
theorem result (lib : Mod2) {m l : ℕ} {aT bT : List ℕ × List ℕ} {HX HZ : List ℕ} {RX RZ : List (ℕ × ℕ × ℕ)} (b : Base m l aT bT HX HZ RX RZ)
    (d : ℤ) (hd : 0 < d) : ∃ c, mk lib m l aT bT d = .ok c ∧ c.n = l * m + l * m ∧ c.distance = d ∧
      c.stab.k = ((l * m + l * m : ℕ) : ℤ) - RX.length - RZ.length ∧
      ∀ P : (n : ℕ) → List (Vec n) → List (Vec n) → Prop, P _ (rows (l * m + l * m) HX) (rows (l * m + l * m) HZ) → P c.n c.hx c.hz := by
  obtain ⟨c, hc, hn, h1, -, -, hx, hz⟩ := mk_ok lib m l aT bT d hd b.pos
  obtain ⟨-, -, -, -, -, -, -, hk, -⟩ := C08_ctor_sound lib d (some ⟨_, (cyclicCodeCheckMatrix m l aT bT).1⟩)
    (some ⟨_, (cyclicCodeCheckMatrix m l aT bT).2⟩) none none c hc
  rw [b.hx] at hx
  rw [b.hz] at hz
  refine ⟨c, hc, by omega, h1, ?_⟩
  have r1 := b.rx
  have r2 := b.rz
  clear hc
  obtain ⟨n, hx', hz', stab, d', xd, zd, lx, lz⟩ := c
  simp only at hn hx hz hk h1 ⊢
  obtain rfl : n = l * m + l * m := by omega
  obtain rfl := eq_of_heq hx
  obtain rfl := eq_of_heq hz
  exact ⟨by rw [hk, r1, r2], fun P hP => hP⟩

theorem minWeight {n d : ℕ} {HX HZ : List ℕ} {w dual : ℕ} (h : ∀ e : Vec n, Und (rows n HZ) e → e ∉ rowSpan (rows n HX) → d ≤ wt e)
    (hw : witnessCheck n d HZ HX w dual = true) : IsMinWeight (rows n HX) (rows n HZ) d :=
  ⟨h, _, witness_of_check hw⟩

/-- C71: for the lengths 72, 108 and 144 the declared distance is the least weight of an undetected non-trivial error, for X errors (detected by
the Z checks, trivial if a product of X checks) and for Z errors.  Missing: the length 90, where the claim is false (`C71_violated`,
`C71_distance_90`), and the upper half of the bound for the length 288 (`C71_bound_288_partial`). -/
theorem C71_distance_partial (lib : Mod2) (n : ℤ) (d : ℕ) (h : (n, d) ∈ ([(72, 6), (108, 10), (144, 12)] : List (ℤ × ℕ))) :
    ∃ c, constructBB lib n = .ok c ∧ (c.n : ℤ) = n ∧ c.distance = d ∧ IsMinWeight c.hx c.hz d ∧ IsMinWeight c.hz c.hx d := by
  simp only [List.mem_cons, Prod.mk.injEq, List.not_mem_nil, or_false] at h
  rcases h with ⟨rfl, rfl⟩ | ⟨rfl, rfl⟩ | ⟨rfl, rfl⟩
  · obtain ⟨c, h1, h2, h3, -, h4⟩ := result lib base72 6 (by norm_num)
    have s := base72.search good72 (w := 3) rfl go72_0 go72_1
    exact ⟨c, h1, by omega, h3, h4 (fun _ X Z => IsMinWeight X Z 6) (minWeight s wit72x),
      h4 (fun _ X Z => IsMinWeight Z X 6) (minWeight (base72.both s) wit72z)⟩
  · obtain ⟨c, h1, h2, h3, -, h4⟩ := result lib base108 10 (by norm_num)
    have s := base108.search good108 (w := 7) rfl go108_0 go108_1
    exact ⟨c, h1, by omega, h3, h4 (fun _ X Z => IsMinWeight X Z 10) (minWeight s wit108x),
      h4 (fun _ X Z => IsMinWeight Z X 10) (minWeight (base108.both s) wit108z)⟩
  · obtain ⟨c, h1, h2, h3, -, h4⟩ := result lib base144 12 (by norm_num)
    have s := base144.search good144 (w := 9) rfl go144_0 go144_1
    exact ⟨c, h1, by omega, h3, h4 (fun _ X Z => IsMinWeight X Z 12) (minWeight s wit144x),
      h4 (fun _ X Z => IsMinWeight Z X 12) (minWeight (base144.both s) wit144z)⟩

/-- C71: the code returned for the length 90 declares the distance 10; its distance is 2, for both kinds of errors. -/
theorem C71_distance_90 (lib : Mod2) : ∃ c, constructBB lib 90 = .ok c ∧ c.distance = 10 ∧ IsMinWeight c.hx c.hz 2 ∧ IsMinWeight c.hz c.hx 2 := by
  obtain ⟨c, h1, -, h3, -, h4⟩ := result lib base90 10 (by norm_num)
  exact ⟨c, h1, h3, h4 (fun _ X Z => IsMinWeight X Z 2) (minWeight base90.two wit90x),
    h4 (fun _ X Z => IsMinWeight Z X 2) (minWeight (base90.both base90.two) wit90z)⟩

/-- C71: with the first two arguments of the call for the length 90 exchanged (`bb_codes.py:25`), the result has the declared distance 10. -/
theorem C71_90_exchanged (lib : Mod2) : ∃ c, mk lib 3 15 ([9], [1, 2]) ([2, 7], [0]) 10 = .ok c ∧ c.n = 90 ∧ c.distance = 10 ∧ c.stab.k = 8 ∧
    IsMinWeight c.hx c.hz 10 ∧ IsMinWeight c.hz c.hx 10 := by
  obtain ⟨c, h1, h2, h3, hk, h4⟩ := result lib base90i 10 (by norm_num)
  have s := base90i.search good90i (w := 7) rfl go90i_0 go90i_1
  exact ⟨c, h1, h2, h3, hk.trans (by decide +kernel), h4 (fun _ X Z => IsMinWeight X Z 10) (minWeight s wit90ix),
    h4 (fun _ X Z => IsMinWeight Z X 10) (minWeight (base90i.both s) wit90iz)⟩

/-- C71: for the length 288 (declared distance 18), the least weight `d` of an undetected non-trivial error is between 12 and 18, and it is the same
for both kinds of errors.  Missing: `d = 18`. -/
theorem C71_bound_288_partial (lib : Mod2) : ∃ c, constructBB lib 288 = .ok c ∧ c.distance = 18 ∧
    ∃ d, 12 ≤ d ∧ d ≤ 18 ∧ IsMinWeight c.hx c.hz d ∧ IsMinWeight c.hz c.hx d := by
  obtain ⟨c, h1, -, h3, -, h4⟩ := result lib base288 18 (by norm_num)
  have s := base288.search good288 (w := 9) rfl go288_0 go288_1
  obtain ⟨u1, u2, u3⟩ := witness_of_check wit288x
  refine ⟨c, h1, h3, h4 (fun _ X Z => ∃ d, 12 ≤ d ∧ d ≤ 18 ∧ IsMinWeight X Z d ∧ IsMinWeight Z X d) ?_⟩
  classical
  let p : ℕ → Prop := fun d => ∃ e : Vec (12 * 12 + 12 * 12), Und (rows _ mz288) e ∧ e ∉ rowSpan (rows _ mx288) ∧ wt e = d
  have hp : ∃ d, p d := ⟨18, _, u1, u2, u3⟩
  have hmin : ∀ e : Vec (12 * 12 + 12 * 12), Und (rows _ mz288) e → e ∉ rowSpan (rows _ mx288) → Nat.find hp ≤ wt e :=
    fun e he hne => Nat.find_min' hp ⟨e, he, hne, rfl⟩
  obtain ⟨e, e1, e2, e3⟩ := Nat.find_spec hp
  refine ⟨Nat.find hp, by rw [← e3]; exact s e e1 e2, Nat.find_min' hp ⟨_, u1, u2, u3⟩, ⟨hmin, e, e1, e2, e3⟩, base288.both hmin, ?_⟩
  obtain ⟨σ, k1, k2⟩ := base288.dual
  exact ⟨e ∘ σ, k1.und e1, fun hh => e2 (k2.span hh), by rw [wt_comp]; exact e3⟩

/-- C71: the numbers of logical qubits. -/
theorem C71_logical_qubits (lib : Mod2) (n k : ℤ) (h : (n, k) ∈ ([(72, 12), (90, 8), (108, 8), (144, 12), (288, 12)] : List (ℤ × ℤ))) :
    ∃ c, constructBB lib n = .ok c ∧ c.stab.k = k := by
  simp only [List.mem_cons, Prod.mk.injEq, List.not_mem_nil, or_false] at h
  rcases h with ⟨rfl, rfl⟩ | ⟨rfl, rfl⟩ | ⟨rfl, rfl⟩ | ⟨rfl, rfl⟩ | ⟨rfl, rfl⟩
  · obtain ⟨c, h1, -, -, h4, -⟩ := result lib base72 6 (by norm_num); exact ⟨c, h1, h4.trans (by decide +kernel)⟩
  · obtain ⟨c, h1, -, -, h4, -⟩ := result lib base90 10 (by norm_num); exact ⟨c, h1, h4.trans (by decide +kernel)⟩
  · obtain ⟨c, h1, -, -, h4, -⟩ := result lib base108 10 (by norm_num); exact ⟨c, h1, h4.trans (by decide +kernel)⟩
  · obtain ⟨c, h1, -, -, h4, -⟩ := result lib base144 12 (by norm_num); exact ⟨c, h1, h4.trans (by decide +kernel)⟩
  · obtain ⟨c, h1, -, -, h4, -⟩ := result lib base288 18 (by norm_num); exact ⟨c, h1, h4.trans (by decide +kernel)⟩

/-- A concrete case: no X error of weight at most 11 on the 144-qubit code is an undetected non-trivial one. -/
example (lib : Mod2) : ∃ c, constructBB lib 144 = .ok c ∧ ∀ e : Vec c.n, wt e ≤ 11 → (∀ g ∈ c.hz, dot g e = 0) → e ∈ rowSpan c.hx := by
  obtain ⟨c, h1, -, -, h4, -⟩ := C71_distance_partial lib 144 12 (by simp)
  refine ⟨c, h1, fun e hw he => ?_⟩
  by_contra hne
  have := h4.1 e he hne
  omega

example (lib : Mod2) : ∃ c, constructBB lib 288 = .ok c ∧ c.stab.k = 12 := C71_logical_qubits lib 288 12 (by simp)

end Verif.BB
