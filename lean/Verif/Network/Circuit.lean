import Verif.Network.Lemmas
import Verif.Network.Spec
import Mathlib.Data.List.Perm.Basic
import Mathlib.Algebra.BigOperators.Group.List.Basic
import Mathlib.Tactic.LinearCombination
import Mathlib.Tactic.Positivity

/-! # Lemmas on the laws of a magnetic circuit -/

namespace Verif.Network

open Finset

set_option linter.unusedSimpArgs false

/-- The laws by position. -/
structure Laws (m : Nat) (r y s f : Vec) : Prop where
  conserved : ∑ k ∈ range (m + 1), f k = 0
  window : ∀ k, k < m → r k * f k - s k + y k * ∑ i ∈ range (k + 1), f i = r (k + 1) * f (k + 1) - s (k + 1)

theorem laws_loops {m : Nat} (r y s x : Vec) : Laws m r y s (legFlux m x) ↔ Sol m (meshMatrix m r y) (meshSide s) x := by
  constructor
  · intro h i hi
    rw [mesh_row r y x hi]
    have := h.window i hi
    rw [legFlux_sum m x i hi] at this
    unfold meshSide
    linarith
  · intro h
    refine ⟨legFlux_total m x, fun k hk => ?_⟩
    have := h k hk
    rw [mesh_row r y x hk] at this
    rw [legFlux_sum m x k hk]
    unfold meshSide at this
    linarith

/-- Fluxes that are conserved come from loops. -/
theorem conserved_loops {m : Nat} {f : Vec} (h : ∑ k ∈ range (m + 1), f k = 0) :
    ∀ k, k < m + 1 → legFlux m (fun k => ∑ i ∈ range (k + 1), f i) k = f k := by
  intro k hk
  unfold legFlux
  cases k with
  | zero =>
    by_cases h1 : 0 < m
    · rw [if_pos h1]; simp
    · have : m = 0 := by omega
      subst this
      simp at h
      simp [h]
  | succ k =>
    rw [if_pos (by omega : 0 < k + 1)]
    simp only [Nat.add_sub_cancel]
    by_cases h1 : k + 1 < m
    · rw [if_pos h1, Finset.sum_range_succ f (k + 1)]; ring
    · have : k + 1 = m := by omega
      rw [if_neg h1]
      rw [← this, Finset.sum_range_succ] at h
      linarith

/-- The work of some sources on the fluxes of others (Tellegen). -/
theorem tellegen {m : Nat} {r y s f g : Vec} (h : Laws m r y s f) (hg : ∑ k ∈ range (m + 1), g k = 0) :
    ∑ k ∈ range (m + 1), s k * g k = ∑ k ∈ range (m + 1), r k * f k * g k +
      ∑ k ∈ range m, y k * (∑ i ∈ range (k + 1), f i) * (∑ i ∈ range (k + 1), g i) := by
  have hb := by_parts m (fun k => r k * f k - s k) g hg
  have hl : ∑ k ∈ range m, (∑ i ∈ range (k + 1), g i) * ((r k * f k - s k) - (r (k + 1) * f (k + 1) - s (k + 1))) =
      ∑ k ∈ range m, -(y k * (∑ i ∈ range (k + 1), f i) * (∑ i ∈ range (k + 1), g i)) := by
    apply Finset.sum_congr rfl
    intro k hk
    have := h.window k (Finset.mem_range.mp hk)
    have h2 : (r k * f k - s k) - (r (k + 1) * f (k + 1) - s (k + 1)) = -(y k * ∑ i ∈ range (k + 1), f i) := by linarith
    rw [h2]; ring
  rw [hl, Finset.sum_neg_distrib] at hb
  have hr : ∑ k ∈ range (m + 1), (r k * f k - s k) * g k = ∑ k ∈ range (m + 1), r k * f k * g k - ∑ k ∈ range (m + 1), s k * g k := by
    rw [← Finset.sum_sub_distrib]
    apply Finset.sum_congr rfl
    intro k _; ring
  rw [hr] at hb
  linarith

theorem laws_energy {m : Nat} {r y s f : Vec} (hr : ∀ k, k < m + 1 → 0 < r k) (hy : ∀ k, k < m → 0 ≤ y k) (h : Laws m r y s f) :
    0 ≤ ∑ k ∈ range (m + 1), s k * f k ∧ (∑ k ∈ range (m + 1), s k * f k = 0 → ∀ k, k < m + 1 → f k = 0) := by
  rw [tellegen h h.conserved]
  have h1 : ∀ k ∈ range (m + 1), 0 ≤ r k * f k * f k := by
    intro k hk
    have := hr k (Finset.mem_range.mp hk)
    nlinarith [mul_self_nonneg (f k)]
  have h2 : ∀ k ∈ range m, 0 ≤ y k * (∑ i ∈ range (k + 1), f i) * (∑ i ∈ range (k + 1), f i) := by
    intro k hk
    have := hy k (Finset.mem_range.mp hk)
    nlinarith [mul_self_nonneg (∑ i ∈ range (k + 1), f i)]
  have e1 := Finset.sum_nonneg h1
  have e2 := Finset.sum_nonneg h2
  refine ⟨by linarith, fun h0 k hk => ?_⟩
  have e3 : ∑ k ∈ range (m + 1), r k * f k * f k = 0 := by linarith
  have := (Finset.sum_eq_zero_iff_of_nonneg h1).mp e3 k (Finset.mem_range.mpr hk)
  have hp := hr k hk
  rcases mul_eq_zero.mp this with h4 | h4
  · rcases mul_eq_zero.mp h4 with h5 | h5
    · linarith
    · exact h5
  · exact h4

theorem laws_comb {m : Nat} {r y s t f g : Vec} (a b : ℚ) (h : Laws m r y s f) (h' : Laws m r y t g) :
    Laws m r y (fun k => a * s k + b * t k) (fun k => a * f k + b * g k) := by
  have hs : ∀ n, ∑ i ∈ range n, (a * f i + b * g i) = a * ∑ i ∈ range n, f i + b * ∑ i ∈ range n, g i := by
    intro n
    rw [Finset.sum_add_distrib, Finset.mul_sum, Finset.mul_sum]
  refine ⟨?_, fun k hk => ?_⟩
  · rw [hs, h.conserved, h'.conserved]; ring
  · have h1 := h.window k hk
    have h2 := h'.window k hk
    rw [hs]
    linear_combination a * h1 + b * h2

theorem laws_unique {m : Nat} {r y s f g : Vec} (hr : ∀ k, k < m + 1 → 0 < r k) (hy : ∀ k, k < m → 0 ≤ y k) (h : Laws m r y s f)
    (h' : Laws m r y s g) : ∀ k, k < m + 1 → f k = g k := by
  have hc := laws_comb 1 (-1) h h'
  have h0 : (fun k => 1 * s k + -1 * s k) = fun _ => (0 : ℚ) := by funext k; ring
  rw [h0] at hc
  have := (laws_energy hr hy hc).2 (by simp)
  intro k hk
  have := this k hk
  linarith

/-- The loops have one solution. -/
theorem mesh_solves {m : Nat} (r y : Vec) (hr : ∀ k, k < m + 1 → 0 < r k) (hy : ∀ k, k < m → 0 ≤ y k) (s : Vec) :
    ∃ x, solve m (meshMatrix m r y) (meshSide s) = some x ∧ Laws m r y s (legFlux m x) := by
  have hk : ∀ x, Sol m (meshMatrix m r y) (fun _ => 0) x → ∀ i, i < m → x i = 0 := by
    intro x hx i hi
    have h0 : (fun _ => (0 : ℚ)) = meshSide (fun _ => 0) := by funext k; simp [meshSide]
    rw [h0] at hx
    have hl := (laws_loops r y (fun _ => 0) x).mpr hx
    have hz := (laws_energy hr hy hl).2 (by simp)
    rw [← legFlux_sum m x i hi]
    apply Finset.sum_eq_zero
    intro j hj
    rw [Finset.mem_range] at hj
    exact hz j (by omega)
  have ht := solve_total hk (meshSide s)
  obtain ⟨x, hx⟩ := Option.isSome_iff_exists.mp ht
  exact ⟨x, hx, (laws_loops r y s x).mpr (solve_sol hx)⟩

/-! ## From positions to columns -/

theorem order_length {net : Network} (h : net.order.Perm (List.range net.n)) : net.order.length = net.n := by
  rw [h.length_eq]; simp

theorem at_some {net : Network} (h : net.order.Perm (List.range net.n)) {k : Nat} (hk : k < net.n) : net.order[k]? = some (net.at k) := by
  have hl := order_length h
  unfold Network.at
  rw [List.getElem?_eq_getElem (by omega)]
  rfl

theorem at_lt {net : Network} (h : net.order.Perm (List.range net.n)) {k : Nat} (hk : k < net.n) : net.at k < net.n := by
  have := List.mem_of_getElem? (at_some h hk)
  simpa using (h.mem_iff.mp this)

theorem idxOf_at {net : Network} (h : net.order.Perm (List.range net.n)) {k : Nat} (hk : k < net.n) : net.order.idxOf (net.at k) = k := by
  have hnd : net.order.Nodup := h.nodup_iff.mpr List.nodup_range
  have hl := order_length h
  have hs := at_some h hk
  rw [List.getElem?_eq_getElem (by omega)] at hs
  have := hnd.idxOf_getElem k (by omega)
  rw [Option.some.inj hs] at this
  exact this

theorem at_idxOf {net : Network} (h : net.order.Perm (List.range net.n)) {c : Nat} (hc : c < net.n) :
    net.order.idxOf c < net.n ∧ net.at (net.order.idxOf c) = c := by
  have hm : c ∈ net.order := h.mem_iff.mpr (by simpa using hc)
  have hl := order_length h
  have h1 := List.idxOf_lt_length_of_mem hm
  refine ⟨by omega, ?_⟩
  have := at_some h (by omega : net.order.idxOf c < net.n)
  rw [List.getElem?_idxOf hm] at this
  exact (Option.some.inj this).symm

theorem sum_at {net : Network} (h : net.order.Perm (List.range net.n)) (g : Nat → ℚ) :
    ∑ k ∈ range net.n, g (net.at k) = ∑ c ∈ range net.n, g c := by
  apply Finset.sum_nbij net.at
  · intro k hk; exact Finset.mem_range.mpr (at_lt h (Finset.mem_range.mp hk))
  · intro a ha b hb hab
    have h1 := idxOf_at h (Finset.mem_range.mp (Finset.mem_coe.mp ha))
    have h2 := idxOf_at h (Finset.mem_range.mp (Finset.mem_coe.mp hb))
    rw [← h1, ← h2, hab]
  · intro c hc
    obtain ⟨h1, h2⟩ := at_idxOf h (Finset.mem_range.mp (Finset.mem_coe.mp hc))
    exact ⟨net.order.idxOf c, Finset.mem_coe.mpr (Finset.mem_range.mpr h1), h2⟩
  · intro _ _; rfl

theorem sum_take (l : List Nat) (g : Nat → ℚ) : ∀ m, m ≤ l.length → ((l.take m).map g).sum = ∑ i ∈ range m, g ((l[i]?).getD 0) := by
  intro m
  induction m with
  | zero => intro _; simp
  | succ m ih =>
    intro hm
    rw [List.take_add_one, List.map_append, List.sum_append, ih (by omega), Finset.sum_range_succ]
    congr 1
    rw [List.getElem?_eq_getElem (by omega)]
    simp

theorem kirchhoff_laws {net : Network} (h : net.order.Perm (List.range net.n)) (hn : 0 < net.n) (r y s f : Vec) :
    Kirchhoff net.order r y s f ↔
      Laws (net.n - 1) (fun k => r (net.at k)) y (fun k => s (net.at k)) (fun k => f (net.at k)) := by
  have hl := order_length h
  have hm : net.n - 1 + 1 = net.n := by omega
  have hsum : ∀ m, m ≤ net.n → ((net.order.take m).map f).sum = ∑ i ∈ range m, f (net.at i) := fun m hm =>
    sum_take net.order f m (by omega)
  have htot : (net.order.map f).sum = ∑ i ∈ range net.n, f (net.at i) := by
    have := hsum net.n (le_refl _)
    rwa [← hl, List.take_length, hl] at this
  constructor
  · intro hk
    refine ⟨?_, fun k hk' => ?_⟩
    · rw [hm, ← htot]; exact hk.conserved
    · have := hk.window k (net.at k) (net.at (k + 1)) (at_some h (by omega)) (at_some h (by omega))
      rw [hsum (k + 1) (by omega)] at this
      exact this
  · intro hk
    refine ⟨?_, fun k a b ha hb => ?_⟩
    · rw [htot]; have := hk.conserved; rwa [hm] at this
    · have hb' : k + 1 < net.order.length := by
        by_contra hc
        rw [List.getElem?_eq_none (by omega)] at hb
        simp at hb
      have h1 := at_some h (by omega : k < net.n)
      have h2 := at_some h (by omega : k + 1 < net.n)
      rw [ha] at h1
      rw [hb] at h2
      rw [Option.some.inj h1, Option.some.inj h2, hsum (k + 1) (by omega)]
      exact hk.window k (by omega)

theorem Laws.congr {m : Nat} {r y s f g : Vec} (h : Laws m r y s f) (hfg : ∀ k, k < m + 1 → f k = g k) : Laws m r y s g := by
  have hs : ∀ n, n ≤ m + 1 → ∑ i ∈ range n, g i = ∑ i ∈ range n, f i := by
    intro n hn
    apply Finset.sum_congr rfl
    intro i hi
    rw [Finset.mem_range] at hi
    exact (hfg i (by omega)).symm
  refine ⟨?_, fun k hk => ?_⟩
  · rw [hs _ (le_refl _)]; exact h.conserved
  · rw [hs _ (by omega), ← hfg k (by omega), ← hfg (k + 1) (by omega)]
    exact h.window k hk

/-- What the solver gives. -/
theorem fluxes_laws {net : Network} (hs : Sound net) (h2 : 1 < net.n) (s : Vec) : ∃ f, net.fluxes s = .ok f ∧
    Laws (net.n - 1) (fun k => net.legs (net.at k)) net.yokes (fun k => s (net.at k)) (fun k => f (net.at k)) := by
  have hr : ∀ k, k < net.n - 1 + 1 → 0 < net.legs (net.at k) := fun k hk => hs.legs _ (at_lt hs.order (by omega))
  have hy : ∀ k, k < net.n - 1 → 0 ≤ net.yokes k := fun k hk => hs.yokes k (by omega)
  obtain ⟨x, hx, hl⟩ := mesh_solves (fun k => net.legs (net.at k)) net.yokes hr hy (fun k => s (net.at k))
  refine ⟨fun c => legFlux (net.n - 1) x (net.order.idxOf c), ?_, ?_⟩
  · unfold Network.fluxes
    rw [if_neg (by omega), hx]
  · apply hl.congr
    intro k hk
    simp only [idxOf_at hs.order (by omega : k < net.n)]

/-- The facts on fluxes used for inductances: they are given, linear in the sources, reciprocal, and take work. -/
theorem fluxes_facts {net : Network} (hs : Sound net) (s t : Vec) : ∃ f g, net.fluxes s = .ok f ∧ net.fluxes t = .ok g ∧
    ∑ c ∈ range net.n, t c * f c = ∑ c ∈ range net.n, s c * g c ∧ 0 ≤ ∑ c ∈ range net.n, s c * f c ∧
    ∀ (a b : ℚ) (u e : Vec), (∀ c, c < net.n → u c = a * s c + b * t c) → net.fluxes u = .ok e →
      ∀ c, c < net.n → e c = a * f c + b * g c := by
  by_cases h1 : net.n = 1
  · have hp := hs.legs 0 (by omega)
    refine ⟨fun _ => s 0 / net.legs 0, fun _ => t 0 / net.legs 0, by simp [Network.fluxes, h1], by simp [Network.fluxes, h1], ?_, ?_, ?_⟩
    · rw [h1]; simp; ring
    · rw [h1]; simp
      have : s 0 * (s 0 / net.legs 0) = s 0 * s 0 / net.legs 0 := by ring
      rw [this]
      exact div_nonneg (mul_self_nonneg _) hp.le
    · intro a b u e hu he c hc
      unfold Network.fluxes at he
      rw [if_pos h1] at he
      simp only [Res.ok.injEq] at he
      subst he
      simp only
      rw [hu 0 (by omega)]
      ring
  · have h2 : 1 < net.n := by have := hs.some; omega
    have hm : net.n - 1 + 1 = net.n := by omega
    have hr : ∀ k, k < net.n - 1 + 1 → 0 < net.legs (net.at k) := fun k hk => hs.legs _ (at_lt hs.order (by omega))
    have hy : ∀ k, k < net.n - 1 → 0 ≤ net.yokes k := fun k hk => hs.yokes k (by omega)
    obtain ⟨f, hf, lf⟩ := fluxes_laws hs h2 s
    obtain ⟨g, hg, lg⟩ := fluxes_laws hs h2 t
    refine ⟨f, g, hf, hg, ?_, ?_, ?_⟩
    · rw [← sum_at hs.order (fun c => t c * f c), ← sum_at hs.order (fun c => s c * g c)]
      have e1 := tellegen lf lg.conserved
      have e2 := tellegen lg lf.conserved
      rw [hm] at e1 e2
      rw [e1, e2]
      congr 1
      · apply Finset.sum_congr rfl; intro k _; ring
      · apply Finset.sum_congr rfl; intro k _; ring
    · rw [← sum_at hs.order (fun c => s c * f c)]
      have := (laws_energy hr hy lf).1
      rwa [hm] at this
    · intro a b u e hu he c hc
      obtain ⟨e', he', le⟩ := fluxes_laws hs h2 u
      rw [he] at he'
      simp only [Res.ok.injEq] at he'
      subst he'
      have lc := laws_comb a b lf lg
      have le' : Laws (net.n - 1) (fun k => net.legs (net.at k)) net.yokes (fun k => a * s (net.at k) + b * t (net.at k))
          (fun k => e (net.at k)) := by
        refine ⟨le.conserved, fun k hk => ?_⟩
        have := le.window k hk
        rw [hu _ (at_lt hs.order (by omega)), hu _ (at_lt hs.order (by omega))] at this
        exact this
      obtain ⟨h3, h4⟩ := at_idxOf hs.order hc
      have := laws_unique hr hy le' lc (net.order.idxOf c) (by omega)
      simp only [h4] at this
      exact this

/-! ## Windings -/

/-- The fluxes given, when there are any. -/
def given (net : Network) (s : Vec) : Vec := match net.fluxes s with | .ok f => f | _ => fun _ => 0

theorem given_ok {net : Network} (hs : Sound net) (s : Vec) : net.fluxes s = .ok (given net s) := by
  obtain ⟨f, _, hf, _⟩ := fluxes_facts hs s s
  unfold given
  rw [hf]

theorem given_comb {net : Network} (hs : Sound net) (a b : ℚ) (s t u : Vec) (hu : ∀ c, c < net.n → u c = a * s c + b * t c) :
    ∀ c, c < net.n → given net u c = a * given net s c + b * given net t c := by
  obtain ⟨f, g, hf, hg, _, _, hc⟩ := fluxes_facts hs s t
  have h1 := given_ok hs s
  have h2 := given_ok hs t
  rw [hf] at h1
  rw [hg] at h2
  rw [← Res.ok.inj h1, ← Res.ok.inj h2]
  exact hc a b u (given net u) hu (given_ok hs u)

theorem given_reciprocal {net : Network} (hs : Sound net) (s t : Vec) :
    ∑ c ∈ range net.n, t c * given net s c = ∑ c ∈ range net.n, s c * given net t c := by
  obtain ⟨f, g, hf, hg, h, _, _⟩ := fluxes_facts hs s t
  have h1 := given_ok hs s
  have h2 := given_ok hs t
  rw [hf] at h1
  rw [hg] at h2
  rw [← Res.ok.inj h1, ← Res.ok.inj h2]
  exact h

theorem given_work {net : Network} (hs : Sound net) (s : Vec) : 0 ≤ ∑ c ∈ range net.n, s c * given net s c := by
  obtain ⟨f, g, hf, hg, _, h, _⟩ := fluxes_facts hs s s
  have h1 := given_ok hs s
  rw [hf] at h1
  rw [← Res.ok.inj h1]
  exact h

theorem sum_source {n c : Nat} (hc : c < n) (v : ℚ) (f : Vec) : ∑ k ∈ range n, source c v k * f k = v * f c := by
  rw [Finset.sum_eq_single c]
  · simp [source]
  · intro b _ hb; simp [source, hb]
  · intro h; exact absurd (Finset.mem_range.mpr hc) h

/-- One source links flux through its own column. -/
theorem source_positive {net : Network} (hs : Sound net) {c : Nat} (hc : c < net.n) {v : ℚ} (hv : v ≠ 0) :
    0 < v * given net (source c v) c := by
  have h0 : 0 ≤ v * given net (source c v) c := by
    have := given_work hs (source c v)
    rwa [sum_source hc] at this
  rcases lt_or_eq_of_le h0 with h | h
  · exact h
  exfalso
  by_cases h1 : net.n = 1
  · have hp := hs.legs 0 (by omega)
    have hc0 : c = 0 := by omega
    subst hc0
    have hg : given net (source 0 v) 0 = v / net.legs 0 := by
      unfold given Network.fluxes
      rw [if_pos h1]
      simp [source]
    rw [hg] at h
    have : 0 < v * (v / net.legs 0) := by
      have e : v * (v / net.legs 0) = v * v / net.legs 0 := by ring
      rw [e]
      exact div_pos (mul_self_pos.mpr hv) hp
    linarith
  · have h2 : 1 < net.n := by have := hs.some; omega
    have hm : net.n - 1 + 1 = net.n := by omega
    have hr : ∀ k, k < net.n - 1 + 1 → 0 < net.legs (net.at k) := fun k hk => hs.legs _ (at_lt hs.order (by omega))
    have hy : ∀ k, k < net.n - 1 → 0 ≤ net.yokes k := fun k hk => hs.yokes k (by omega)
    obtain ⟨f, hf, lf⟩ := fluxes_laws hs h2 (source c v)
    have hg := given_ok hs (source c v)
    rw [hf] at hg
    have hfe := Res.ok.inj hg
    have hz := (laws_energy hr hy lf).2 (by
      rw [hm, sum_at hs.order (fun k => source c v k * f k), sum_source hc, hfe]; exact h.symm)
    obtain ⟨h3, h4⟩ := at_idxOf hs.order hc
    have hsrc : ∀ k, k < net.n - 1 → source c v (net.at k) = source c v (net.at (k + 1)) := by
      intro k hk
      have hw := lf.window k hk
      have hsum : ∑ i ∈ range (k + 1), f (net.at i) = 0 := by
        apply Finset.sum_eq_zero
        intro i hi
        rw [Finset.mem_range] at hi
        exact hz i (by omega)
      have z1 := hz k (by omega)
      have z2 := hz (k + 1) (by omega)
      rw [hsum, z1, z2] at hw
      linarith
    have hother : ∃ k, k < net.n - 1 ∧ (k = net.order.idxOf c ∨ k + 1 = net.order.idxOf c) := by
      by_cases hq : net.order.idxOf c < net.n - 1
      · exact ⟨_, hq, Or.inl rfl⟩
      · exact ⟨net.order.idxOf c - 1, by omega, Or.inr (by omega)⟩
    obtain ⟨k, hk, hk'⟩ := hother
    have hne : net.at k ≠ net.at (k + 1) := by
      intro he
      have a1 := idxOf_at hs.order (by omega : k < net.n)
      have a2 := idxOf_at hs.order (by omega : k + 1 < net.n)
      rw [he, a2] at a1
      omega
    have := hsrc k hk
    rcases hk' with rfl | hk'
    · rw [h4] at this hne
      simp [source, hne.symm] at this
      exact hv this
    · rw [hk', h4] at this hne
      simp [source, hne] at this
      exact hv this.symm

theorem mapM_ok {α β : Type} {f : α → Res β} {g : α → β} : ∀ {l : List α}, (∀ a ∈ l, f a = .ok (g a)) → Res.mapM f l = .ok (l.map g) := by
  intro l
  induction l with
  | nil => intro _; rfl
  | cons a rest ih =>
    intro h
    simp only [Res.mapM, h a (by simp), Res.bind, ih (fun x hx => h x (by simp [hx])), List.map_cons]

/-- The matrix, entry by entry. -/
theorem matrix_form {net : Network} (hs : Sound net) (ts : List (ℚ × Nat)) :
    inductanceMatrix net ts = .ok ((List.range ts.length).map fun i => ts.map fun t =>
      ((ts.map fun u => u.1 * given net (source t.2 t.1) u.2)[i]?).getD 0) := by
  unfold inductanceMatrix
  rw [mapM_ok (g := fun t => ts.map fun u => u.1 * given net (source t.2 t.1) u.2)]
  · simp only [Res.bind, List.map_map]
    rfl
  · intro t _
    unfold inductanceColumn
    rw [given_ok hs]
    rfl

theorem sources_cons (t : ℚ × Nat) (ts : List (ℚ × Nat)) (x : ℚ) (xs : List ℚ) (c : Nat) :
    sources (t :: ts) (x :: xs) c = x * source t.2 t.1 c + 1 * sources ts xs c := by
  simp only [sources, List.zip_cons_cons, List.map_cons, List.sum_cons, source]
  by_cases h : t.2 = c
  · rw [if_pos h, if_pos h.symm]; ring
  · rw [if_neg h, if_neg (fun e => h e.symm)]; ring

/-- Superposition. -/
theorem given_sources {net : Network} (hs : Sound net) : ∀ (ts : List (ℚ × Nat)) (xs : List ℚ) (c : Nat), c < net.n →
    given net (sources ts xs) c = ((ts.zip xs).map fun p => p.2 * given net (source p.1.2 p.1.1) c).sum := by
  intro ts
  induction ts with
  | nil =>
    intro xs c hc
    have := given_comb hs 0 0 (fun _ => 0) (fun _ => 0) (sources [] xs) (by intro c _; simp [sources]) c hc
    simpa using this
  | cons t ts ih =>
    intro xs c hc
    cases xs with
    | nil =>
      have := given_comb hs 0 0 (fun _ => 0) (fun _ => 0) (sources (t :: ts) []) (by intro c _; simp [sources]) c hc
      simpa using this
    | cons x xs =>
      have := given_comb hs x 1 (source t.2 t.1) (sources ts xs) (sources (t :: ts) (x :: xs)) (fun c _ => sources_cons t ts x xs c) c hc
      rw [this, ih xs c hc]
      simp

theorem sum_sources {n : Nat} (f : Vec) : ∀ (ts : List (ℚ × Nat)) (xs : List ℚ), (∀ t ∈ ts, t.2 < n) →
    ∑ c ∈ range n, sources ts xs c * f c = ((ts.zip xs).map fun p => p.2 * (p.1.1 * f p.1.2)).sum := by
  intro ts
  induction ts with
  | nil => intro xs _; simp [sources]
  | cons t ts ih =>
    intro xs h
    cases xs with
    | nil => simp [sources]
    | cons x xs =>
      have e : ∀ c ∈ range n, sources (t :: ts) (x :: xs) c * f c = x * (source t.2 t.1 c * f c) + sources ts xs c * f c := by
        intro c _
        rw [sources_cons]; ring
      rw [Finset.sum_congr rfl e, Finset.sum_add_distrib, ← Finset.mul_sum, sum_source (h t (by simp)), ih xs (fun u hu => h u (by simp [hu]))]
      simp

/-- The turns and column of a winding by index. -/
def winding (ts : List (ℚ × Nat)) (i : Nat) : ℚ × Nat := (ts[i]?).getD (0, 0)

/-- The inductance of two windings. -/
def inductance (net : Network) (ts : List (ℚ × Nat)) (i j : Nat) : ℚ :=
  (winding ts i).1 * given net (source (winding ts j).2 (winding ts j).1) (winding ts i).2

theorem winding_lt {n : Nat} {ts : List (ℚ × Nat)} (h : ∀ t ∈ ts, t.2 < n) {i : Nat} (hi : i < ts.length) : (winding ts i).2 < n := by
  unfold winding
  rw [List.getElem?_eq_getElem hi]
  exact h _ (List.getElem_mem hi)

theorem sum_zip (g : (ℚ × Nat) × ℚ → ℚ) : ∀ (ts : List (ℚ × Nat)) (xs : List ℚ), xs.length = ts.length →
    ((ts.zip xs).map g).sum = ∑ j ∈ range ts.length, g (winding ts j, (xs[j]?).getD 0) := by
  intro ts
  induction ts with
  | nil => intro xs _; simp
  | cons t ts ih =>
    intro xs h
    cases xs with
    | nil => simp at h
    | cons x xs =>
      rw [List.length_cons, Finset.sum_range_succ']
      simp only [List.zip_cons_cons, List.map_cons, List.sum_cons]
      rw [ih xs (by simpa using h)]
      simp [winding]
      ring

theorem inductance_symm {net : Network} (hs : Sound net) {ts : List (ℚ × Nat)} (h : ∀ t ∈ ts, t.2 < net.n) {i j : Nat}
    (hi : i < ts.length) (hj : j < ts.length) : inductance net ts i j = inductance net ts j i := by
  have := given_reciprocal hs (source (winding ts j).2 (winding ts j).1) (source (winding ts i).2 (winding ts i).1)
  rw [sum_source (winding_lt h hi), sum_source (winding_lt h hj)] at this
  exact this

theorem inductance_linked {net : Network} (hs : Sound net) {ts : List (ℚ × Nat)} (h : ∀ t ∈ ts, t.2 < net.n) (xs : List ℚ)
    (hx : xs.length = ts.length) {i : Nat} (hi : i < ts.length) :
    (winding ts i).1 * given net (sources ts xs) (winding ts i).2 = ∑ j ∈ range ts.length, inductance net ts i j * (xs[j]?).getD 0 := by
  rw [given_sources hs ts xs _ (winding_lt h hi), sum_zip _ ts xs hx, Finset.mul_sum]
  apply Finset.sum_congr rfl
  intro j _
  unfold inductance
  ring

theorem inductance_energy {net : Network} (hs : Sound net) {ts : List (ℚ × Nat)} (h : ∀ t ∈ ts, t.2 < net.n) (xs : List ℚ)
    (hx : xs.length = ts.length) :
    0 ≤ ∑ i ∈ range ts.length, ∑ j ∈ range ts.length, (xs[i]?).getD 0 * inductance net ts i j * (xs[j]?).getD 0 := by
  have hw := given_work hs (sources ts xs)
  rw [sum_sources _ ts xs h, sum_zip _ ts xs hx] at hw
  have e : ∑ j ∈ range ts.length, (xs[j]?).getD 0 * ((winding ts j).1 * given net (sources ts xs) (winding ts j).2) =
      ∑ i ∈ range ts.length, ∑ j ∈ range ts.length, (xs[i]?).getD 0 * inductance net ts i j * (xs[j]?).getD 0 := by
    apply Finset.sum_congr rfl
    intro i hi
    rw [inductance_linked hs h xs hx (Finset.mem_range.mp hi), Finset.mul_sum]
    apply Finset.sum_congr rfl
    intro j _; ring
  rw [← e]; exact hw

theorem inductance_diag {net : Network} (hs : Sound net) {ts : List (ℚ × Nat)} (h : ∀ t ∈ ts, t.2 < net.n) {i : Nat}
    (hi : i < ts.length) : 0 ≤ inductance net ts i i ∧ ((winding ts i).1 ≠ 0 → 0 < inductance net ts i i) := by
  constructor
  · have := given_work hs (source (winding ts i).2 (winding ts i).1)
    rwa [sum_source (winding_lt h hi)] at this
  · intro hne
    exact source_positive hs (winding_lt h hi) hne

theorem inductance_coupling {net : Network} (hs : Sound net) {ts : List (ℚ × Nat)} (h : ∀ t ∈ ts, t.2 < net.n) {i j : Nat}
    (hi : i < ts.length) (hj : j < ts.length) :
    inductance net ts i j * inductance net ts i j ≤ inductance net ts i i * inductance net ts j j := by
  have hq : ∀ a b : ℚ, 0 ≤ a * a * inductance net ts i i + 2 * (a * b * inductance net ts i j) + b * b * inductance net ts j j := by
    intro a b
    have hw := given_work hs (fun c => a * source (winding ts i).2 (winding ts i).1 c + b * source (winding ts j).2 (winding ts j).1 c)
    have e : ∀ c ∈ range net.n, (a * source (winding ts i).2 (winding ts i).1 c + b * source (winding ts j).2 (winding ts j).1 c) *
        given net (fun c => a * source (winding ts i).2 (winding ts i).1 c + b * source (winding ts j).2 (winding ts j).1 c) c =
        a * a * (source (winding ts i).2 (winding ts i).1 c * given net (source (winding ts i).2 (winding ts i).1) c) +
        a * b * (source (winding ts i).2 (winding ts i).1 c * given net (source (winding ts j).2 (winding ts j).1) c) +
        a * b * (source (winding ts j).2 (winding ts j).1 c * given net (source (winding ts i).2 (winding ts i).1) c) +
        b * b * (source (winding ts j).2 (winding ts j).1 c * given net (source (winding ts j).2 (winding ts j).1) c) := by
      intro c hc
      rw [given_comb hs a b _ _ _ (fun _ _ => rfl) c (Finset.mem_range.mp hc)]
      ring
    rw [Finset.sum_congr rfl e] at hw
    simp only [Finset.sum_add_distrib, ← Finset.mul_sum] at hw
    rw [sum_source (winding_lt h hi), sum_source (winding_lt h hi), sum_source (winding_lt h hj), sum_source (winding_lt h hj)] at hw
    have hsym := inductance_symm hs h hi hj
    unfold inductance at hsym ⊢
    rw [← hsym] at hw
    linarith
  have hd := (inductance_diag hs h hj).1
  rcases lt_or_eq_of_le hd with hp | hz
  · have h1 := hq (inductance net ts j j) (-inductance net ts i j)
    have h2 : 0 ≤ inductance net ts j j * (inductance net ts i i * inductance net ts j j - inductance net ts i j * inductance net ts i j) := by
      nlinarith [h1]
    have := nonneg_of_mul_nonneg_right h2 hp
    linarith
  · rw [← hz]
    have hzero : inductance net ts i j = 0 := by
      by_contra hne
      have h1 := hq 1 (-(inductance net ts i i + 1) / (2 * inductance net ts i j))
      rw [← hz] at h1
      have h2 : 2 * (1 * (-(inductance net ts i i + 1) / (2 * inductance net ts i j)) * inductance net ts i j) = -(inductance net ts i i + 1) := by
        field_simp
      rw [h2] at h1
      linarith
    rw [hzero]; simp

end Verif.Network
