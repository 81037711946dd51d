import Verif.Network.Circuit
import Mathlib.Algebra.BigOperators.Field

/-! # Lemmas on building the network and on placements -/

namespace Verif.Network

open Finset

set_option linter.unusedSimpArgs false

theorem bind_ok {α β : Type} {a : Res α} {f : α → Res β} {b : β} (h : a.bind f = .ok b) : ∃ x, a = .ok x ∧ f x = .ok b := by
  cases a with
  | ok x => exact ⟨x, rfl, h⟩
  | throws e => simp [Res.bind] at h
  | ub => simp [Res.bind] at h

/-- Whether a value is given. -/
def Res.isOk {α : Type} : Res α → Bool | .ok _ => true | _ => false

/-- Whether it is undefined behaviour. -/
def Res.isUb {α : Type} : Res α → Bool | .ub => true | _ => false

/-- The value given, or another. -/
def Res.value {α : Type} (d : α) : Res α → α | .ok a => a | _ => d

theorem ok_of_isOk {α : Type} {a : Res α} (d : α) (h : a.isOk = true) : a = .ok (a.value d) := by
  cases a <;> simp [Res.isOk, Res.value] at *

theorem ub_of_isUb {α : Type} {a : Res α} (h : a.isUb = true) : a = .ub := by
  cases a <;> simp [Res.isUb] at *

theorem mainColumn_spec {c : Core} {k : Nat} (h : mainColumn c = .ok k) : IsMain c k ∧ k < c.columns.length := by
  unfold mainColumn at h
  by_cases h0 : c.columns = []
  · rw [if_pos h0] at h; simp at h
  · rw [if_neg h0] at h
    have hl : 0 < c.columns.length := List.length_pos_iff.mpr h0
    by_cases h1 : (c.columns.findIdx fun x => x.central) < c.columns.length
    · rw [if_pos h1] at h
      simp only [Res.ok.injEq] at h
      subst h
      refine ⟨Or.inl ⟨c.columns[c.columns.findIdx fun x => x.central], ?_, ?_, ?_⟩, h1⟩
      · rw [List.getElem?_eq_getElem h1]
      · exact List.findIdx_getElem (p := fun x : Column => x.central) (w := h1)
      · intro j y hj hy
        have hjl : j < c.columns.length := by omega
        have := List.not_of_lt_findIdx hj
        rw [List.getElem?_eq_getElem hjl] at hy
        rw [← Option.some.inj hy]
        simpa using this
    · rw [if_neg h1] at h
      simp only [Res.ok.injEq] at h
      subst h
      refine ⟨Or.inr ⟨rfl, h0, ?_⟩, hl⟩
      intro y hy
      have : ¬ ∃ x ∈ c.columns, x.central = true := by
        intro he
        exact h1 (List.findIdx_lt_length.mpr he)
      by_contra hc
      exact this ⟨y, hy, by simpa using hc⟩

theorem mainColumn_unique {c : Core} {j k : Nat} (h : IsMain c j) (h' : IsMain c k) : j = k := by
  rcases h with ⟨x, h1, h2, h3⟩ | ⟨h1, h2, h3⟩ <;> rcases h' with ⟨y, g1, g2, g3⟩ | ⟨g1, g2, g3⟩
  · rcases Nat.lt_trichotomy j k with hl | hl | hl
    · have := g3 j x hl h1; rw [h2] at this; simp at this
    · exact hl
    · have := h3 k y hl g1; rw [g2] at this; simp at this
  · have := g3 x (List.mem_of_getElem? h1); rw [h2] at this; simp at this
  · have := h3 y (List.mem_of_getElem? g1); rw [g2] at this; simp at this
  · omega

theorem nearestFrom_spec (p : ℚ × ℚ) (all : List Column) : ∀ (l : List Column) (i : Nat) (best : Option (Nat × ℚ)),
    all.drop i = l →
    (match best with
      | none => i = 0
      | some (b, d) => b < i ∧ (∃ c, all[b]? = some c ∧ awayFrom p c = d) ∧
        ∀ (j : Nat) (y : Column), j < i → all[j]? = some y → d ≤ awayFrom p y ∧ (j < b → d < awayFrom p y)) →
    match nearestFrom p l i best with
      | none => all = []
      | some (b, _) => IsNearest all p b := by
  intro l
  induction l with
  | nil =>
    intro i best hd hb
    have hlen : all.length ≤ i := List.drop_eq_nil_iff.mp hd
    cases best with
    | none =>
      simp only [nearestFrom]
      simp only at hb
      subst hb
      exact List.length_eq_zero_iff.mp (by omega)
    | some bd =>
      obtain ⟨b, d⟩ := bd
      simp only [nearestFrom]
      simp only at hb
      obtain ⟨_, ⟨c, hc, hcd⟩, hall⟩ := hb
      refine ⟨c, hc, fun j y hy => ?_⟩
      have hj : j < all.length := by
        by_contra hn
        rw [List.getElem?_eq_none (by omega)] at hy
        simp at hy
      have := hall j y (by omega) hy
      rw [← hcd] at this
      exact this
  | cons c rest ih =>
    intro i best hd hb
    have hi : all[i]? = some c := by
      have := congrArg (fun l => l[0]?) hd
      simpa [List.getElem?_drop] using this
    have hd' : all.drop (i + 1) = rest := by
      have := congrArg List.tail hd
      simpa [List.tail_drop] using this
    cases best with
    | none =>
      simp only [nearestFrom]
      simp only at hb
      subst hb
      apply ih 1 (some (0, awayFrom p c)) hd'
      simp only
      refine ⟨by omega, ⟨c, hi, rfl⟩, fun j y hj hy => ?_⟩
      have : j = 0 := by omega
      subst this
      rw [hi] at hy
      rw [Option.some.inj hy]
      exact ⟨le_refl _, fun h => absurd h (by omega)⟩
    | some bd =>
      obtain ⟨b, d⟩ := bd
      simp only [nearestFrom]
      simp only at hb
      obtain ⟨hbi, ⟨c', hc', hcd⟩, hall⟩ := hb
      by_cases hlt : awayFrom p c < d
      · rw [if_pos hlt]
        apply ih (i + 1) (some (i, awayFrom p c)) hd'
        simp only
        refine ⟨by omega, ⟨c, hi, rfl⟩, fun j y hj hy => ?_⟩
        by_cases hji : j = i
        · subst hji
          rw [hi] at hy
          rw [Option.some.inj hy]
          exact ⟨le_refl _, fun h => absurd h (by omega)⟩
        · have := (hall j y (by omega) hy).1
          exact ⟨by linarith, fun _ => by linarith⟩
      · rw [if_neg hlt]
        apply ih (i + 1) (some (b, d)) hd'
        simp only
        refine ⟨by omega, ⟨c', hc', hcd⟩, fun j y hj hy => ?_⟩
        by_cases hji : j = i
        · subst hji
          rw [hi] at hy
          rw [← Option.some.inj hy]
          exact ⟨not_lt.mp hlt, fun h => absurd h (by omega)⟩
        · exact hall j y (by omega) hy

theorem nearest_spec {cs : List Column} {p : ℚ × ℚ} {k : Nat} (h : nearest cs p = some k) : IsNearest cs p k := by
  have := nearestFrom_spec p cs cs 0 none (by simp) (by simp)
  unfold nearest at h
  cases hn : nearestFrom p cs 0 none with
  | none => rw [hn] at h; simp at h
  | some bd =>
    rw [hn] at this h
    obtain ⟨b, d⟩ := bd
    simp only [Option.map_some, Option.some.injEq] at h
    subst h
    exact this

theorem nearest_unique {cs : List Column} {p : ℚ × ℚ} {j k : Nat} (h : IsNearest cs p j) (h' : IsNearest cs p k) : j = k := by
  obtain ⟨x, h1, h2⟩ := h
  obtain ⟨y, g1, g2⟩ := h'
  rcases Nat.lt_trichotomy j k with hl | hl | hl
  · have a := (h2 k y g1).1
    have b := (g2 j x h1).2 hl
    linarith
  · exact hl
  · have a := (g2 j x h1).1
    have b := (h2 k y g1).2 hl
    linarith

theorem addGaps_spec {cs : List Column} : ∀ {places : List (ℚ × ℚ)} {rs : List ℚ} {legs legs' : Vec},
    addGaps cs places rs legs = .ok legs' → ∀ k, legs' k = legs k + gapsOf cs places rs k := by
  intro places
  induction places with
  | nil =>
    intro rs legs legs' h k
    simp only [addGaps, Res.ok.injEq] at h
    subst h
    simp [gapsOf]
  | cons g gs ih =>
    intro rs legs legs' h k
    cases rs with
    | nil => simp [addGaps] at h
    | cons r rs =>
      simp only [addGaps] at h
      cases hn : nearest cs g with
      | none => rw [hn] at h; simp at h
      | some q =>
        rw [hn] at h
        have hq := nearest_spec hn
        rw [ih h k]
        have e : gapsOf cs (g :: gs) (r :: rs) k = (if k = q then r else 0) + gapsOf cs gs rs k := by
          classical
          unfold gapsOf
          simp only [List.zip_cons_cons, List.map_cons, List.sum_cons]
          congr 1
          by_cases hk : k = q
          · subst hk; rw [if_pos hq, if_pos rfl]
          · rw [if_neg hk, if_neg (fun hh => hk (nearest_unique hh hq))]
        rw [e]
        by_cases hk : k = q
        · rw [if_pos hk, if_pos hk]; ring
        · rw [if_neg hk, if_neg hk]; ring

theorem gapsOf_nonneg (cs : List Column) (places : List (ℚ × ℚ)) (rs : List ℚ) (h : ∀ r ∈ rs, 0 ≤ r) (k : Nat) : 0 ≤ gapsOf cs places rs k := by
  classical
  unfold gapsOf
  apply List.sum_nonneg
  intro x hx
  obtain ⟨p, hp, rfl⟩ := List.mem_map.mp hx
  split
  · exact h _ (List.of_mem_zip hp).2
  · exact le_refl _

/-- Gaps all in one column. -/
theorem gapsOf_one {cs : List Column} {m : Nat} (k : Nat) : ∀ {places : List (ℚ × ℚ)} {rs : List ℚ},
    (∀ p ∈ places, IsNearest cs p m) → places.length = rs.length → gapsOf cs places rs k = if k = m then rs.sum else 0 := by
  classical
  intro places
  unfold gapsOf
  induction places with
  | nil =>
    intro rs _ hl
    have : rs = [] := List.length_eq_zero_iff.mp (by simpa using hl.symm)
    subst this; simp
  | cons p ps ih =>
    intro rs hp hl
    cases rs with
    | nil => simp at hl
    | cons g gs =>
      simp only [List.zip_cons_cons, List.map_cons, List.sum_cons]
      rw [ih (fun x hx => hp x (by simp [hx])) (by simpa using hl)]
      by_cases hk : k = m
      · subst hk; rw [if_pos (hp p (by simp)), if_pos rfl, if_pos rfl]
      · rw [if_neg (fun hh => hk (nearest_unique hh (hp p (by simp)))), if_neg hk, if_neg hk]; simp

theorem filterMap_all {α : Type} : ∀ (l : List (Option α)), (∀ g ∈ l, ∃ p, g = some p) → (l.filterMap id).length = l.length := by
  intro l
  induction l with
  | nil => intro _; rfl
  | cons a l ih =>
    intro hl
    obtain ⟨p, rfl⟩ := hl a (by simp)
    rw [show (some p :: l).filterMap id = p :: l.filterMap id from rfl, List.length_cons, List.length_cons, ih (fun g hg => hl g (by simp [hg]))]

theorem gapSums_main (m : Nat) : ∀ l : List ℚ, gapSums m (l.map fun g => (m, g)) = (l.sum, 0) := by
  intro l
  induction l with
  | nil => rfl
  | cons a l ih =>
    simp only [List.map_cons, gapSums, ne_eq, not_true, if_false, ih, List.sum_cons]
    rw [add_comm]

theorem gapSums_spec (m : Nat) : ∀ l : List (Nat × ℚ), gapSums m l =
    (((l.filter fun g => g.1 == m).map Prod.snd).sum, ((l.filter fun g => g.1 != m).map fun g => 1 / g.2).sum) := by
  intro l
  induction l with
  | nil => rfl
  | cons g l ih =>
    simp only [gapSums, ih]
    by_cases h : g.1 = m
    · rw [if_neg (by simpa using h), List.filter_cons_of_pos (by simpa using h), List.filter_cons_of_neg (by simpa using h)]
      simp [add_comm]
    · rw [if_pos h, List.filter_cons_of_neg (by simpa using h), List.filter_cons_of_pos (by simpa using h)]
      simp [add_comm]

/-- Fluxes of a network with every reluctance scaled. -/
theorem given_scaled {net : Network} (hs : Sound net) (h2 : 1 < net.n) {q : ℚ} (hq : 0 < q) (s : Vec) :
    Sound ⟨net.n, net.order, fun k => q * net.legs k, fun k => net.yokes k * q, net.main⟩ ∧
    ∀ c, c < net.n → given ⟨net.n, net.order, fun k => q * net.legs k, fun k => net.yokes k * q, net.main⟩ s c = given net s c / q := by
  have hs' : Sound ⟨net.n, net.order, fun k => q * net.legs k, fun k => net.yokes k * q, net.main⟩ :=
    ⟨hs.order, fun c hc => mul_pos hq (hs.legs c hc), fun k hk => mul_nonneg (hs.yokes k hk) hq.le, hs.some⟩
  refine ⟨hs', fun c hc => ?_⟩
  obtain ⟨f, hf, lf⟩ := fluxes_laws hs h2 s
  obtain ⟨g, hg, lg⟩ := fluxes_laws hs' h2 s
  have e1 := given_ok hs s
  have e2 := given_ok hs' s
  rw [hf] at e1
  rw [hg] at e2
  rw [← Res.ok.inj e1, ← Res.ok.inj e2]
  have lf' : Laws (net.n - 1) (fun k => q * net.legs (net.at k)) (fun k => net.yokes k * q) (fun k => s (net.at k)) (fun k => f (net.at k) / q) := by
    have hsum : ∀ n, ∑ i ∈ range n, f (net.at i) / q = (∑ i ∈ range n, f (net.at i)) / q := by
      intro n; rw [Finset.sum_div]
    refine ⟨by rw [hsum, lf.conserved]; simp, fun k hk => ?_⟩
    have := lf.window k hk
    rw [hsum]
    field_simp
    simpa using this
  have hr : ∀ k, k < net.n - 1 + 1 → 0 < q * net.legs (net.at k) := fun k hk => mul_pos hq (hs.legs _ (at_lt hs.order (by omega)))
  have hy : ∀ k, k < net.n - 1 → 0 ≤ net.yokes k * q := fun k hk => mul_nonneg (hs.yokes k (by omega)) hq.le
  obtain ⟨h3, h4⟩ := at_idxOf hs.order hc
  have := laws_unique hr hy lg lf' (net.order.idxOf c) (by omega)
  have h5 : Network.at ⟨net.n, net.order, fun k => q * net.legs k, fun k => net.yokes k * q, net.main⟩ (net.order.idxOf c) = c := h4
  rw [h5, h4] at this
  exact this

/-- More reluctance in one column, with the source there. -/
theorem given_gapped {net : Network} (hs : Sound net) {c : Nat} (hc : c < net.n) {g : ℚ} (hg : 0 ≤ g) (legs : Vec)
    (hl : ∀ k, k < net.n → legs k = net.legs k + if k = c then g else 0) (v : ℚ) :
    given { net with legs := legs } (source c v) c * (1 + g * given net (source c 1) c) = v * given net (source c 1) c := by
  have hs' : Sound { net with legs := legs } := by
    refine ⟨hs.order, fun k hk => ?_, hs.yokes, hs.some⟩
    show 0 < legs k
    rw [hl k hk]
    have := hs.legs k hk
    split <;> linarith
  by_cases h1 : net.n = 1
  · have hp := hs.legs 0 (by omega)
    have hc0 : c = 0 := by omega
    subst hc0
    have hl0 := hl 0 (by omega)
    rw [if_pos rfl] at hl0
    have e1 : given { net with legs := legs } (source 0 v) 0 = v / (net.legs 0 + g) := by
      unfold given Network.fluxes
      rw [if_pos h1]
      simp [source, hl0]
    have e2 : given net (source 0 1) 0 = 1 / net.legs 0 := by
      unfold given Network.fluxes
      rw [if_pos h1]
      simp [source]
    rw [e1, e2]
    have : net.legs 0 + g ≠ 0 := by linarith
    field_simp
  · have h2 : 1 < net.n := by have := hs.some; omega
    have hr : ∀ k, k < net.n - 1 + 1 → 0 < net.legs (net.at k) := fun k hk => hs.legs _ (at_lt hs.order (by omega))
    have hy : ∀ k, k < net.n - 1 → 0 ≤ net.yokes k := fun k hk => hs.yokes k (by omega)
    obtain ⟨f, hf, lf⟩ := fluxes_laws hs' h2 (source c v)
    have e1 := given_ok hs' (source c v)
    rw [hf] at e1
    rw [← Res.ok.inj e1]
    obtain ⟨w, hw, lw⟩ := fluxes_laws hs h2 (source c (v - g * f c))
    have e2 := given_ok hs (source c (v - g * f c))
    rw [hw] at e2
    have lf' : Laws (net.n - 1) (fun k => net.legs (net.at k)) net.yokes (fun k => source c (v - g * f c) (net.at k)) (fun k => f (net.at k)) := by
      refine ⟨lf.conserved, fun k hk => ?_⟩
      have := lf.window k hk
      have hat : ∀ j, Network.at { net with legs := legs } j = net.at j := fun _ => rfl
      simp only [hat] at this
      have key : ∀ j, j < net.n → legs (net.at j) * f (net.at j) - source c v (net.at j) =
          net.legs (net.at j) * f (net.at j) - source c (v - g * f c) (net.at j) := by
        intro j hj
        rw [hl _ (at_lt hs.order hj)]
        unfold source
        by_cases hjc : net.at j = c
        · rw [if_pos hjc, if_pos hjc, if_pos hjc, hjc]; ring
        · rw [if_neg hjc, if_neg hjc, if_neg hjc]; ring
      rw [key k (by omega), key (k + 1) (by omega)] at this
      exact this
    obtain ⟨h3, h4⟩ := at_idxOf hs.order hc
    have hu := laws_unique hr hy lf' lw (net.order.idxOf c) (by omega)
    rw [h4] at hu
    have hcomb := given_comb hs (v - g * f c) 0 (source c 1) (source c 1) (source c (v - g * f c)) (by
      intro k _; unfold source; split <;> ring) c hc
    rw [← Res.ok.inj e2, ← hu] at hcomb
    linarith

theorem relative_ok {c : Core} {order : List Nat} {main : Nat} {ly : Vec × Vec} (h : relative c order main = .ok ly) :
    (∀ k, k < c.columns.length → 0 < (columnAt c.columns k).area) ∧
    (∀ k, ly.1 k = (columnAt c.columns k).height / (columnAt c.columns k).area) ∧ (∀ k, 0 ≤ ly.2 k) := by
  unfold relative at h
  by_cases ha : (c.columns.any fun x => decide (x.area ≤ 0)) = true
  · rw [if_pos ha] at h; simp at h
  · rw [if_neg ha] at h
    cases hw : c.windows with
    | nil => rw [hw] at h; simp at h
    | cons w ws =>
      rw [hw] at h
      simp only at h
      cases hh : w.height with
      | none => rw [hh] at h; simp at h
      | some wh =>
        rw [hh] at h
        simp only at h
        by_cases hy : (c.height - wh) / 2 * (columnAt c.columns main).depth ≤ 0
        · rw [if_pos hy] at h; simp at h
        · rw [if_neg hy] at h
          simp only [Res.ok.injEq] at h
          subst h
          refine ⟨fun k hk => ?_, fun k => rfl, fun k => ?_⟩
          · unfold columnAt
            rw [List.getElem?_eq_getElem hk]
            simp only [Option.getD_some]
            by_contra hc
            apply ha
            rw [List.any_eq_true]
            exact ⟨_, List.getElem_mem hk, by simpa using hc⟩
          · simp only
            apply div_nonneg
            · have := abs_nonneg ((columnAt c.columns ((order[k + 1]?).getD 0)).x - (columnAt c.columns ((order[k]?).getD 0)).x)
              linarith
            · exact (not_le.mp hy).le

/-- The network without gaps. -/
theorem ungapped_ok {c : Core} {order : List Nat} {r : ℚ} {net : Network} (ho : order.Perm (List.range c.columns.length))
    (hh : ∀ x ∈ c.columns, 0 < x.height) (h : ungapped c order r = .ok net) :
    0 < r ∧ Sound net ∧ net.n = c.columns.length ∧ net.order = order ∧ mainColumn c = .ok net.main ∧
    given net (source net.main 1) net.main * r = 1 := by
  unfold ungapped at h
  by_cases hr : r ≤ 0
  · rw [if_pos hr] at h; simp at h
  rw [if_neg hr] at h
  have hr' : 0 < r := not_le.mp hr
  obtain ⟨main, hm, h⟩ := bind_ok h
  obtain ⟨_, hml⟩ := mainColumn_spec hm
  by_cases h1 : c.columns.length = 1
  · rw [if_pos h1] at h
    simp only [Res.ok.injEq] at h
    subst h
    refine ⟨hr', ⟨by rw [h1] at ho; exact ho, fun _ _ => hr', fun _ _ => le_refl _, by simp⟩, h1.symm, rfl, hm, ?_⟩
    simp only
    unfold given Network.fluxes
    have : main = 0 := by omega
    subst this
    simp [source]
    field_simp
  · rw [if_neg h1] at h
    obtain ⟨ly, hly, h⟩ := bind_ok h
    obtain ⟨f, hf, h⟩ := bind_ok h
    simp only [Res.ok.injEq] at h
    obtain ⟨ha, hl, hy⟩ := relative_ok hly
    have hs : Sound ⟨c.columns.length, order, ly.1, ly.2, main⟩ := by
      refine ⟨ho, fun k hk => ?_, fun k _ => hy k, by simp only; omega⟩
      simp only at hk ⊢
      rw [hl k]
      apply div_pos _ (ha k hk)
      unfold columnAt
      rw [List.getElem?_eq_getElem hk]
      exact hh _ (List.getElem_mem hk)
    have hg := given_ok hs (source main 1)
    rw [hf] at hg
    have hfe := Res.ok.inj hg
    have hpos := source_positive hs hml (v := 1) one_ne_zero
    rw [← hfe] at hpos
    have hpos' : 0 < f main := by linarith
    have hq : 0 < r / (1 / f main) := by positivity
    have hsc := given_scaled hs (by simp only; omega) hq (source main 1)
    subst h
    refine ⟨hr', hsc.1, rfl, rfl, hm, ?_⟩
    have := hsc.2 main hml
    simp only at this ⊢
    rw [this, ← hfe]
    field_simp

/-! ## Placements -/

theorem windowFrom_mem {sections : List Section} {name : String} {w : Int} (h : windowFromSections sections name = some w) :
    WoundIn sections name w := by
  unfold windowFromSections at h
  obtain ⟨s, hs, hw⟩ := List.exists_of_findSome?_eq_some h
  by_cases hc : (s.conduction && s.windings.contains name) = true
  · rw [if_pos hc] at hw
    rw [Bool.and_eq_true] at hc
    exact ⟨s, hs, hc.1, by simpa using hc.2, hw⟩
  · rw [if_neg hc] at hw; simp at hw

theorem windowFrom_none {sections : List Section} {name : String} (h : windowFromSections sections name = none) (w : Int) :
    ¬ WoundIn sections name w := by
  unfold windowFromSections at h
  rw [List.findSome?_eq_none_iff] at h
  rintro ⟨s, hs, hc, hn, hw⟩
  have := h s hs
  rw [if_pos (by simp [hc, hn]), hw] at this
  simp at this

theorem windowsFrom_mem {sections : List Section} {name : String} {w : Int} :
    w ∈ windowsFromSections sections name ↔ WoundIn sections name w := by
  unfold windowsFromSections
  rw [List.mem_insertionSort, List.mem_dedup, List.mem_filterMap]
  constructor
  · rintro ⟨s, hs, hw⟩
    by_cases hc : (s.conduction && s.windings.contains name) = true
    · rw [if_pos hc] at hw
      rw [Bool.and_eq_true] at hc
      exact ⟨s, hs, hc.1, by simpa using hc.2, hw⟩
    · rw [if_neg hc] at hw; simp at hw
  · rintro ⟨s, hs, hc, hn, hw⟩
    exact ⟨s, hs, by rw [if_pos (by simp [hc, hn])]; exact hw⟩

theorem windowColumn_spec {c : Core} {w : Int} {k : Nat} (h0 : 0 ≤ w) (h : windowColumn c w.toNat = .ok k) : Around c w k := by
  unfold windowColumn at h
  cases hx : c.windows[w.toNat]? with
  | none => rw [hx] at h; simp at h
  | some x =>
    rw [hx] at h
    simp only at h
    refine ⟨h0, x, hx, ?_⟩
    cases hc : x.column with
    | none =>
      rw [hc] at h
      exact Or.inl ⟨rfl, (mainColumn_spec h).1⟩
    | some q =>
      rw [hc] at h
      simp only at h
      by_cases hq : q < 0 ∨ q ≥ c.columns.length
      · rw [if_pos hq] at h; simp at h
      · rw [if_neg hq] at h
        simp only [Res.ok.injEq] at h
        refine Or.inr ⟨?_, ?_⟩
        · congr 1; omega
        · omega

theorem mainColumn_of {c : Core} {k : Nat} (h : IsMain c k) : mainColumn c = .ok k := by
  have hne : c.columns ≠ [] := by
    rcases h with ⟨x, hx, _⟩ | ⟨_, h, _⟩
    · intro he; rw [he] at hx; simp at hx
    · exact h
  have : ∃ j, mainColumn c = .ok j := by
    unfold mainColumn
    rw [if_neg hne]
    split
    · exact ⟨_, rfl⟩
    · exact ⟨_, rfl⟩
  obtain ⟨j, hj⟩ := this
  rw [hj, mainColumn_unique (mainColumn_spec hj).1 h]

theorem windowColumn_of {c : Core} {w : Int} {k : Nat} (h : Around c w k) : w < c.windows.length ∧ windowColumn c w.toNat = .ok k := by
  obtain ⟨h0, x, hx, h⟩ := h
  have hl : w.toNat < c.windows.length := by
    by_contra hn
    rw [List.getElem?_eq_none (by omega)] at hx
    simp at hx
  refine ⟨by omega, ?_⟩
  unfold windowColumn
  rw [hx]
  rcases h with ⟨h1, h2⟩ | ⟨h1, h2⟩
  · simp only [h1]; exact mainColumn_of h2
  · simp only [h1]
    rw [if_neg (by omega)]
    simp

theorem checkWindows_of {c : Core} {k : Nat} : ∀ {l : List Int}, (∀ w ∈ l, Around c w k) → checkWindows c k l = .ok () := by
  intro l
  induction l with
  | nil => intro _; rfl
  | cons w rest ih =>
    intro h
    obtain ⟨h1, h2⟩ := windowColumn_of (h w (by simp))
    have h0 := (h w (by simp)).1
    simp only [checkWindows]
    rw [if_neg (by omega), h2]
    simp only [Res.bind, ne_eq, not_true, if_false]
    exact ih (fun v hv => h v (by simp [hv]))

theorem around_unique {c : Core} {w : Int} {j k : Nat} (h : Around c w j) (h' : Around c w k) : j = k := by
  obtain ⟨_, x, hx, h1⟩ := h
  obtain ⟨_, y, hy, h2⟩ := h'
  rw [hx] at hy
  have hxy := Option.some.inj hy
  subst hxy
  rcases h1 with ⟨a, b⟩ | ⟨a, b⟩ <;> rcases h2 with ⟨d, e⟩ | ⟨d, e⟩
  · exact mainColumn_unique b e
  · rw [a] at d; simp at d
  · rw [a] at d; simp at d
  · rw [a] at d; simp at d; exact d

theorem checkWindows_spec {c : Core} {k : Nat} : ∀ {l : List Int}, checkWindows c k l = .ok () →
    ∀ w ∈ l, 0 ≤ w → w < c.windows.length → Around c w k := by
  intro l
  induction l with
  | nil => intro _ w hw; simp at hw
  | cons v rest ih =>
    intro h w hw h0 hl
    simp only [checkWindows] at h
    by_cases hv : v < 0 ∨ v ≥ c.windows.length
    · rw [if_pos hv] at h
      rcases List.mem_cons.mp hw with rfl | hw
      · omega
      · exact ih h w hw h0 hl
    · rw [if_neg hv] at h
      obtain ⟨q, hq, h⟩ := bind_ok h
      by_cases hqk : q ≠ k
      · rw [if_pos hqk] at h; simp at h
      · rw [if_neg hqk] at h
        rcases List.mem_cons.mp hw with rfl | hw
        · have := windowColumn_spec h0 hq
          rwa [not_not.mp hqk] at this
        · exact ih h w hw h0 hl

theorem mapM_spec {α β : Type} {f : α → Res β} : ∀ {l : List α} {r : List β}, Res.mapM f l = .ok r →
    r.length = l.length ∧ ∀ (i : Nat) (a : α) (b : β), l[i]? = some a → r[i]? = some b → f a = .ok b := by
  intro l
  induction l with
  | nil =>
    intro r h
    simp only [Res.mapM, Res.ok.injEq] at h
    subst h
    exact ⟨rfl, fun i a b h => by simp at h⟩
  | cons x rest ih =>
    intro r h
    simp only [Res.mapM] at h
    obtain ⟨y, hy, h⟩ := bind_ok h
    obtain ⟨ys, hys, h⟩ := bind_ok h
    simp only [Res.ok.injEq] at h
    subst h
    obtain ⟨h1, h2⟩ := ih hys
    refine ⟨by simp [h1], fun i a b ha hb => ?_⟩
    cases i with
    | zero =>
      simp only [List.getElem?_cons_zero, Option.some.injEq] at ha hb
      subst ha; subst hb; exact hy
    | succ i =>
      simp only [List.getElem?_cons_succ] at ha hb
      exact h2 i a b ha hb

end Verif.Network
