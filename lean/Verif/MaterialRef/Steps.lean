import Verif.MaterialRef.Lemmas
import Verif.MaterialRef.Spec

/-! # One step of the pipeline, and the pipeline -/

namespace Verif.MaterialRef

set_option linter.unusedSimpArgs false
set_option linter.unusedSectionVars false
set_option linter.unusedVariables false

open Classical

variable {K : Type} [Field K] [LinearOrder K] [IsStrictOrderedRing K]

theorem culls_iff (d : Dimension) : d.culls = true ↔ Excluding d := by
  cases d <;> simp [Dimension.culls, Excluding]

/-- What a step that does not stop does. -/
structure Stepped (temp : K) (reference : Material K) (w : Dimension → K) (d : Dimension)
    (before after : List (Material K × K)) (g : Material K → K) : Prop where
  perm : after.Perm ((before.filter (fun p => decide (Passes temp reference w d p.1))).map (fun p => (p.1, p.2 + g p.1)))
  sorted : Descending before → Descending after
  bounds : ∀ p ∈ after, 0 ≤ g p.1 ∧ g p.1 ≤ max (w d) 0
  mono : ∀ p ∈ after, ∀ q ∈ after, (0 < w d → Closer temp reference d p.1 q.1) → g q.1 ≤ g p.1

theorem stepped_same (temp : K) (reference : Material K) (w : Dimension → K) (d : Dimension)
    (l : List (Material K × K)) (h : ∀ p ∈ l, Passes temp reference w d p.1) :
    Stepped temp reference w d l l (fun _ => 0) := by
  refine ⟨?_, id, fun p _ => ⟨le_refl _, le_max_right _ _⟩, fun p _ q _ _ => le_refl _⟩
  rw [List.filter_eq_self.mpr (by simpa using h)]
  simp

theorem stepped_rescored (temp : K) (reference : Material K) (w : Dimension → K) (d : Dimension) (r : K)
    (hr : reference.reading temp d = .number r) (hw : 0 < w d) (l kept : List (Material K × K))
    (hk : kept = l.filter (fun p => decide (Passes temp reference w d p.1)))
    (hn : ∀ p ∈ kept, Known temp d p.1) :
    ∃ (after : List (Material K × K)) (g : Material K → K),
      rescore (w d) kept (kept.map (fun p => dist temp d r p.1)) = .ok after ∧
      Stepped temp reference w d l after g := by
  obtain ⟨c, after, h1, h2, h3, h4, h5⟩ := rescore_spec (w d) hw.le kept (dist temp d r)
  have hm : ∀ p ∈ after, ∃ q ∈ kept, q.1 = p.1 := by
    intro p hp
    obtain ⟨q, hq, e⟩ := List.mem_map.mp (h2.subset hp)
    exact ⟨q, hq, by rw [← e]⟩
  refine ⟨after, fun m => c (dist temp d r m), h1, ?_, fun _ => h3, fun p hp => ?_, fun p hp q hq h => ?_⟩
  · rw [hk] at h2; exact h2
  · obtain ⟨q, hq, e⟩ := hm p hp
    rw [← e]
    exact ⟨(h4 q hq).1, le_trans (h4 q hq).2 (le_max_left _ _)⟩
  · obtain ⟨p', hp', e⟩ := hm p hp
    obtain ⟨q', hq', e'⟩ := hm q hq
    obtain ⟨x, hx⟩ := hn p' hp'
    obtain ⟨y, hy⟩ := hn q' hq'
    have := h5 p' hp' q' hq' (by
      rw [← e, ← e'] at h
      have := h hw r x y hr hx hy
      simpa [dist, hx, hy] using this)
    rw [e, e'] at this
    exact this

theorem step_ok (temp : K) (reference : Material K) (w : Dimension → K) (d : Dimension) (m : Memo K)
    (l : List (Material K × K)) (h : ¬ Blocks temp reference w d (l.map Prod.fst)) :
    ∃ (after : List (Material K × K)) (g : Material K → K),
      (step temp reference w d m l).2 = .ok after ∧ Stepped temp reference w d l after g := by
  unfold step
  by_cases hw : w d ≤ 0
  · refine ⟨l, _, ?_, stepped_same temp reference w d l (fun p _ _ h => absurd h (not_lt.mpr hw))⟩
    by_cases hc : d.culls = true
    · rw [if_pos hc]; unfold cullFilter; rw [if_pos hw]
    · rw [if_neg hc]; unfold plainFilter; rw [if_pos hw]
  have hw' : 0 < w d := not_le.mp hw
  have hnr : reference.reading temp d ≠ .raises := fun e => h ⟨hw', Or.inl e⟩
  by_cases hc : d.culls = true
  · have he := (culls_iff d).mp hc
    rw [if_pos hc]; unfold cullFilter; rw [if_neg hw]
    cases hr : reference.reading temp d with
    | raises => exact absurd hr hnr
    | nan =>
      refine ⟨l, _, rfl, stepped_same temp reference w d l (fun p _ _ _ hk => ?_)⟩
      obtain ⟨x, hx⟩ := hk
      rw [hr] at hx; simp at hx
    | number r =>
      have hkr : Known temp d reference := ⟨r, hr⟩
      obtain ⟨kept, k1, k2, k3⟩ := cullLoop_some temp d r l m (fun p hp e =>
        h ⟨hw', Or.inr (Or.inr ⟨he, hkr, p.1, List.mem_map_of_mem hp, e⟩)⟩)
      have k2' : kept = l.filter (fun p => decide (Passes temp reference w d p.1)) := by
        rw [k2]
        apply List.filter_congr
        intro p _
        unfold Passes
        cases hp : p.1.reading temp d <;> simp [he, hw', hkr]
      obtain ⟨after, g, a1, a2⟩ := stepped_rescored temp reference w d r hr hw' l kept k2' k1
      refine ⟨after, g, ?_, a2⟩
      simp only [cullEnd, k3]
      exact a1
  · have he : ¬ Excluding d := fun e => hc ((culls_iff d).mpr e)
    rw [if_neg hc]; unfold plainFilter; rw [if_neg hw]
    have hall : l.filter (fun p => decide (Passes temp reference w d p.1)) = l :=
      List.filter_eq_self.mpr (fun p _ => by simp [Passes, he])
    cases hr : reference.reading temp d with
    | raises => exact absurd hr hnr
    | nan =>
      have hnk : ¬ Known temp d reference := fun ⟨x, hx⟩ => by rw [hr] at hx; simp at hx
      cases l with
      | nil =>
        refine ⟨[], fun _ => 0, rfl, stepped_same temp reference w d [] (by simp)⟩
      | cons p l =>
        exact absurd ⟨hw', Or.inr (Or.inl ⟨he, p.1, by simp, Or.inl hnk⟩)⟩ h
    | number r =>
      have hn : ∀ p ∈ l, Known temp d p.1 := by
        intro p hp
        by_contra hcon
        exact h ⟨hw', Or.inr (Or.inl ⟨he, p.1, List.mem_map_of_mem hp, Or.inr hcon⟩)⟩
      obtain ⟨after, g, a1, a2⟩ := stepped_rescored temp reference w d r hr hw' l l hall.symm hn
      refine ⟨after, g, ?_, a2⟩
      simp only [plainEnd, plainLoop_some temp d r l m hn]
      exact a1

theorem step_raised (temp : K) (reference : Material K) (w : Dimension → K) (d : Dimension) (m : Memo K)
    (l : List (Material K × K)) (h : Blocks temp reference w d (l.map Prod.fst)) :
    (step temp reference w d m l).2 = .raised := by
  obtain ⟨hw, h⟩ := h
  unfold step
  rcases h with h | ⟨he, c, hc, h⟩ | ⟨he, ⟨r, hr⟩, c, hc, h⟩
  · by_cases hc : d.culls = true
    · rw [if_pos hc]; unfold cullFilter; rw [if_neg (not_le.mpr hw), h]
    · rw [if_neg hc]; unfold plainFilter; rw [if_neg (not_le.mpr hw), h]
  · rw [if_neg (fun e => he ((culls_iff d).mp e))]
    obtain ⟨p, hp, rfl⟩ := List.mem_map.mp hc
    unfold plainFilter
    rw [if_neg (not_le.mpr hw)]
    cases hr : reference.reading temp d with
    | raises => rfl
    | nan => simp only [plainEnd, plainLoop_none temp d none l m ⟨p, hp, Or.inl rfl⟩]
    | number r =>
      have hk : ∀ x, p.1.reading temp d ≠ .number x := by
        rcases h with h | h
        · exact absurd ⟨r, hr⟩ h
        · exact fun x e => h ⟨x, e⟩
      simp only [plainEnd, plainLoop_none temp d (some r) l m ⟨p, hp, Or.inr hk⟩]
  · rw [if_pos ((culls_iff d).mpr he)]
    obtain ⟨p, hp, rfl⟩ := List.mem_map.mp hc
    unfold cullFilter
    rw [if_neg (not_le.mpr hw), hr]
    simp only [cullEnd, cullLoop_none temp d r l m ⟨p, hp, h⟩]

/-- The first components after a step. -/
theorem stepped_fst {temp : K} {reference : Material K} {w : Dimension → K} {d : Dimension}
    {before after : List (Material K × K)} {g : Material K → K} (h : Stepped temp reference w d before after g) :
    (after.map Prod.fst).Perm ((before.map Prod.fst).filter (fun c => decide (Passes temp reference w d c))) := by
  have := h.perm.map Prod.fst
  rw [List.map_map] at this
  rw [List.filter_map]
  exact this

theorem blocks_perm {temp : K} {reference : Material K} {w : Dimension → K} {d : Dimension} {a b : List (Material K)}
    (h : a.Perm b) : Blocks temp reference w d a ↔ Blocks temp reference w d b := by
  unfold Blocks
  have : ∀ P : Material K → Prop, (∃ c ∈ a, P c) ↔ ∃ c ∈ b, P c := fun P =>
    ⟨fun ⟨c, hc, hp⟩ => ⟨c, h.subset hc, hp⟩, fun ⟨c, hc, hp⟩ => ⟨c, h.symm.subset hc, hp⟩⟩
  rw [this, this]

/-- The step does not depend on what is recorded. -/
theorem step_memo (temp : K) (reference : Material K) (w : Dimension → K) (d : Dimension) (m m' : Memo K)
    (l : List (Material K × K)) : (step temp reference w d m l).2 = (step temp reference w d m' l).2 := by
  have hp : ∀ (ref : Option K) (l : List (Material K × K)) (m m' : Memo K),
      (plainLoop temp d ref m l).2 = (plainLoop temp d ref m' l).2 := by
    intro ref l
    induction l with
    | nil => intro m m'; rfl
    | cons p l ih =>
      intro m m'
      obtain ⟨c, t⟩ := p
      unfold plainLoop
      cases c.reading temp d with
      | number x =>
        cases ref with
        | none => rfl
        | some r => simp only []; rw [ih _ (m'.record d c.name |r - x|)]
      | nan => rfl
      | raises => rfl
  have hc : ∀ (r : K) (l : List (Material K × K)) (m m' : Memo K),
      (cullLoop temp d r m l).2 = (cullLoop temp d r m' l).2 := by
    intro r l
    induction l with
    | nil => intro m m'; rfl
    | cons p l ih =>
      intro m m'
      obtain ⟨c, t⟩ := p
      unfold cullLoop
      cases c.reading temp d with
      | number x => simp only []; rw [ih _ (m'.record d c.name |r - x|)]
      | nan => exact ih _ _
      | raises => rfl
  have ep : ∀ (wt : K) (a b : Memo K × Option (List K)), a.2 = b.2 → (plainEnd wt l a).2 = (plainEnd wt l b).2 := by
    intro wt a b h
    unfold plainEnd
    rw [h]
    cases b.2 <;> rfl
  have ec : ∀ (wt : K) (a b : Memo K × Option (List (Material K × K) × List K)), a.2 = b.2 →
      (cullEnd wt a).2 = (cullEnd wt b).2 := by
    intro wt a b h
    unfold cullEnd
    rw [h]
    cases b.2 <;> rfl
  unfold step cullFilter plainFilter
  by_cases h1 : d.culls = true
  · rw [if_pos h1, if_pos h1]
    by_cases h2 : w d ≤ 0
    · rw [if_pos h2, if_pos h2]
    · rw [if_neg h2, if_neg h2]
      cases reference.reading temp d with
      | number r => exact ec _ _ _ (hc r l m m')
      | nan => rfl
      | raises => rfl
  · rw [if_neg h1, if_neg h1]
    by_cases h2 : w d ≤ 0
    · rw [if_pos h2, if_pos h2]
    · rw [if_neg h2, if_neg h2]
      cases reference.reading temp d with
      | number r => exact ep _ _ _ (hp (some r) l m m')
      | nan => exact ep _ _ _ (hp none l m m')
      | raises => rfl

theorem pipeline_memo (temp : K) (reference : Material K) (w : Dimension → K) (ds : List Dimension) :
    ∀ (m m' : Memo K) (l : List (Material K × K)),
    (pipeline temp reference w ds m l).2 = (pipeline temp reference w ds m' l).2 := by
  induction ds with
  | nil => intro m m' l; rfl
  | cons d ds ih =>
    intro m m' l
    unfold pipeline
    have h := step_memo temp reference w d m m' l
    generalize step temp reference w d m l = a at h
    generalize step temp reference w d m' l = b at h
    obtain ⟨a1, a2⟩ := a
    obtain ⟨b1, b2⟩ := b
    simp only at h
    subst h
    cases a2 with
    | ok l' => exact ih _ _ _
    | raised => rfl
    | undefined => rfl

/-- The candidates left after some dimensions. -/
noncomputable def leftAfter (temp : K) (reference : Material K) (w : Dimension → K) (ds : List Dimension) (cs : List (Material K)) :
    List (Material K) :=
  cs.filter (fun c => decide (∀ d ∈ ds, Passes temp reference w d c))

theorem leftAfter_cons (temp : K) (reference : Material K) (w : Dimension → K) (d : Dimension) (ds : List Dimension)
    (cs : List (Material K)) : leftAfter temp reference w (d :: ds) cs =
      leftAfter temp reference w ds (cs.filter (fun c => decide (Passes temp reference w d c))) := by
  unfold leftAfter
  rw [List.filter_filter]
  apply List.filter_congr
  intro c _
  simp [Bool.and_comm]

theorem leftAfter_perm {temp : K} {reference : Material K} {w : Dimension → K} {ds : List Dimension}
    {a b : List (Material K)} (h : a.Perm b) : (leftAfter temp reference w ds a).Perm (leftAfter temp reference w ds b) :=
  h.filter _

/-- What a pipeline that does not stop does. -/
structure Piped (temp : K) (reference : Material K) (w : Dimension → K) (ds : List Dimension)
    (before after : List (Material K × K)) : Prop where
  perm : (after.map Prod.fst).Perm (leftAfter temp reference w ds (before.map Prod.fst))
  sorted : Descending before → Descending after
  bounds : ∀ lo hi, (∀ p ∈ before, lo ≤ p.2 ∧ p.2 ≤ hi) →
    ∀ p ∈ after, lo ≤ p.2 ∧ p.2 ≤ hi + (ds.map (fun d => max (w d) 0)).sum
  mono : ∀ a b, (∀ d ∈ ds, 0 < w d → Closer temp reference d a b) →
    (∀ t u, (a, t) ∈ before → (b, u) ∈ before → u ≤ t) → ∀ t u, (a, t) ∈ after → (b, u) ∈ after → u ≤ t

/-- Where a pipeline stops. -/
def Stops (temp : K) (reference : Material K) (w : Dimension → K) (ds : List Dimension) (cs : List (Material K)) : Prop :=
  ∃ pre d post, ds = pre ++ d :: post ∧ Blocks temp reference w d (leftAfter temp reference w pre cs)

theorem stops_cons (temp : K) (reference : Material K) (w : Dimension → K) (d : Dimension) (ds : List Dimension)
    (cs : List (Material K)) : Stops temp reference w (d :: ds) cs ↔ Blocks temp reference w d cs ∨
      Stops temp reference w ds (cs.filter (fun c => decide (Passes temp reference w d c))) := by
  constructor
  · rintro ⟨pre, e, post, h, hb⟩
    cases pre with
    | nil =>
      simp only [List.nil_append, List.cons.injEq] at h
      left
      rw [h.1]
      simpa [leftAfter] using hb
    | cons x pre =>
      simp only [List.cons_append, List.cons.injEq] at h
      right
      refine ⟨pre, e, post, h.2, ?_⟩
      rw [← h.1, leftAfter_cons] at hb
      exact hb
  · rintro (h | ⟨pre, e, post, h, hb⟩)
    · exact ⟨[], d, ds, rfl, by simpa [leftAfter] using h⟩
    · exact ⟨d :: pre, e, post, by rw [h]; rfl, by rw [leftAfter_cons]; exact hb⟩

theorem stops_perm {temp : K} {reference : Material K} {w : Dimension → K} {ds : List Dimension}
    {a b : List (Material K)} (h : a.Perm b) : Stops temp reference w ds a ↔ Stops temp reference w ds b := by
  unfold Stops
  have : ∀ (pre : List Dimension) (d : Dimension), Blocks temp reference w d (leftAfter temp reference w pre a) ↔
      Blocks temp reference w d (leftAfter temp reference w pre b) := fun pre d => blocks_perm (leftAfter_perm h)
  simp only [this]

theorem pipeline_spec (temp : K) (reference : Material K) (w : Dimension → K) (ds : List Dimension) :
    ∀ (m : Memo K) (l : List (Material K × K)),
    (Stops temp reference w ds (l.map Prod.fst) ∧ (pipeline temp reference w ds m l).2 = .raised) ∨
    (¬ Stops temp reference w ds (l.map Prod.fst) ∧ ∃ after, (pipeline temp reference w ds m l).2 = .ok after ∧
      Piped temp reference w ds l after) := by
  induction ds with
  | nil =>
    intro m l
    right
    refine ⟨?_, l, rfl, ?_, id, ?_, fun a b _ h => h⟩
    · rintro ⟨pre, d, post, h, _⟩
      simp at h
    · simp [leftAfter]
    · intro lo hi h p hp
      simpa using h p hp
  | cons d ds ih =>
    intro m l
    by_cases hb : Blocks temp reference w d (l.map Prod.fst)
    · left
      refine ⟨(stops_cons ..).mpr (Or.inl hb), ?_⟩
      have := step_raised temp reference w d m l hb
      unfold pipeline
      generalize step temp reference w d m l = a at this
      obtain ⟨a1, a2⟩ := a
      simp only at this
      subst this
      rfl
    · obtain ⟨mid, g, h1, h2⟩ := step_ok temp reference w d m l hb
      have hpipe : ∃ m'' : Memo K, (pipeline temp reference w (d :: ds) m l).2 = (pipeline temp reference w ds m'' mid).2 := by
        refine ⟨(step temp reference w d m l).1, ?_⟩
        conv_lhs => unfold pipeline
        generalize step temp reference w d m l = a at h1
        obtain ⟨a1, a2⟩ := a
        simp only at h1
        subst h1
        rfl
      obtain ⟨m'', hm''⟩ := hpipe
      have hs : Stops temp reference w (d :: ds) (l.map Prod.fst) ↔ Stops temp reference w ds (mid.map Prod.fst) := by
        rw [stops_cons, stops_perm (stepped_fst h2)]
        simp [hb]
      rw [hs, hm'']
      rcases ih m'' mid with h | ⟨h, after, e, hp⟩
      · exact Or.inl h
      · refine Or.inr ⟨h, after, e, ?_, fun hd => hp.sorted (h2.sorted hd), ?_, ?_⟩
        · rw [leftAfter_cons]
          exact hp.perm.trans (leftAfter_perm (stepped_fst h2))
        · intro lo hi hl p hp'
          have := hp.bounds lo (hi + max (w d) 0) (fun q hq => by
            obtain ⟨q', hq', eq⟩ := List.mem_map.mp (h2.perm.subset hq)
            have b1 := hl q' (List.mem_filter.mp hq').1
            have b2 := h2.bounds q hq
            rw [← eq] at b2 ⊢
            simp only at b2 ⊢
            constructor <;> linarith [b1.1, b1.2, b2.1, b2.2]) p hp'
          simp only [List.map_cons, List.sum_cons]
          constructor
          · exact this.1
          · linarith [this.2]
        · intro a b hc ht
          refine hp.mono a b (fun e he => hc e (by simp [he])) (fun t u h3 h4 => ?_)
          obtain ⟨p, hp1, hp2⟩ := List.mem_map.mp (h2.perm.subset h3)
          obtain ⟨q, hq1, hq2⟩ := List.mem_map.mp (h2.perm.subset h4)
          obtain ⟨p1, p2⟩ := p
          obtain ⟨q1, q2⟩ := q
          simp only [Prod.mk.injEq] at hp2 hq2
          obtain ⟨rfl, rfl⟩ := hp2
          obtain ⟨rfl, rfl⟩ := hq2
          have t1 := ht p2 q2 (List.mem_filter.mp hp1).1 (List.mem_filter.mp hq1).1
          have t2 := h2.mono _ h3 _ h4 (hc d (by simp))
          simp only at t2
          linarith

/-! ## What is recorded -/

/-- Everything recorded stays recorded (perhaps with another score). -/
def Grows (m m' : Memo K) : Prop := ∀ d n, (m d n).isSome → (m' d n).isSome

theorem Grows.trans {a b c : Memo K} (h : Grows a b) (h' : Grows b c) : Grows a c := fun d n x => h' d n (h d n x)

theorem grows_record (m : Memo K) (d : Dimension) (n : String) (s : K) : Grows m (m.record d n s) := by
  intro d' n' h
  unfold Memo.record
  by_cases e : d' = d ∧ n' = n
  · rw [if_pos e]; rfl
  · rw [if_neg e]; exact h

theorem plainLoop_grows (temp : K) (d : Dimension) (ref : Option K) (l : List (Material K × K)) : ∀ m : Memo K,
    Grows m (plainLoop temp d ref m l).1 ∧
    ((plainLoop temp d ref m l).2 ≠ none → ∀ p ∈ l, ((plainLoop temp d ref m l).1 d p.1.name).isSome) := by
  induction l with
  | nil => intro m; exact ⟨fun _ _ h => h, by simp⟩
  | cons p l ih =>
    intro m
    obtain ⟨c, t⟩ := p
    unfold plainLoop
    cases c.reading temp d with
    | number x =>
      cases ref with
      | none => exact ⟨fun _ _ h => h, by simp⟩
      | some r =>
        simp only []
        obtain ⟨h1, h2⟩ := ih (m.record d c.name |r - x|)
        refine ⟨(grows_record _ _ _ _).trans h1, fun hn q hq => ?_⟩
        rcases List.mem_cons.mp hq with e | e
        · subst e
          exact h1 d c.name (by simp [Memo.record])
        · exact h2 (fun e' => hn (by rw [e']; rfl)) q e
    | nan => exact ⟨fun _ _ h => h, by simp⟩
    | raises => exact ⟨fun _ _ h => h, by simp⟩

theorem cullLoop_grows (temp : K) (d : Dimension) (r : K) (l : List (Material K × K)) : ∀ m : Memo K,
    Grows m (cullLoop temp d r m l).1 := by
  induction l with
  | nil => intro m; exact fun _ _ h => h
  | cons p l ih =>
    intro m
    obtain ⟨c, t⟩ := p
    unfold cullLoop
    cases c.reading temp d with
    | number x => exact (grows_record _ _ _ _).trans (ih _)
    | nan => exact ih m
    | raises => exact fun _ _ h => h

theorem plainEnd_fst (w : K) (l : List (Material K × K)) (r : Memo K × Option (List K)) : (plainEnd w l r).1 = r.1 := by
  unfold plainEnd
  cases r.2 <;> rfl

theorem cullEnd_fst (w : K) (r : Memo K × Option (List (Material K × K) × List K)) : (cullEnd w r).1 = r.1 := by
  unfold cullEnd
  cases r.2 <;> rfl

theorem step_grows (temp : K) (reference : Material K) (w : Dimension → K) (d : Dimension) (m : Memo K)
    (l : List (Material K × K)) : Grows m (step temp reference w d m l).1 ∧
    (¬ Excluding d → 0 < w d → (∃ after, (step temp reference w d m l).2 = .ok after) →
      ∀ p ∈ l, ((step temp reference w d m l).1 d p.1.name).isSome) := by
  have hrefl : Grows m m := fun _ _ h => h
  unfold step
  by_cases hc : d.culls = true
  · refine ⟨?_, fun he => absurd ((culls_iff d).mp hc) he⟩
    rw [if_pos hc]
    unfold cullFilter
    by_cases hw : w d ≤ 0
    · rw [if_pos hw]; exact hrefl
    · rw [if_neg hw]
      cases reference.reading temp d with
      | number r => simp only [cullEnd_fst]; exact cullLoop_grows temp d r l m
      | nan => exact hrefl
      | raises => exact hrefl
  · rw [if_neg hc]
    unfold plainFilter
    by_cases hw : w d ≤ 0
    · rw [if_pos hw]; exact ⟨hrefl, fun _ h => absurd h (not_lt.mpr hw)⟩
    · rw [if_neg hw]
      have key : ∀ ref : Option K, Grows m (plainEnd (w d) l (plainLoop temp d ref m l)).1 ∧
          (¬ Excluding d → 0 < w d → (∃ after, (plainEnd (w d) l (plainLoop temp d ref m l)).2 = .ok after) →
            ∀ p ∈ l, ((plainEnd (w d) l (plainLoop temp d ref m l)).1 d p.1.name).isSome) := by
        intro ref
        obtain ⟨h1, h2⟩ := plainLoop_grows temp d ref l m
        rw [plainEnd_fst]
        refine ⟨h1, fun _ _ ⟨after, ha⟩ => h2 (fun e => ?_)⟩
        simp [plainEnd, e] at ha
      cases reference.reading temp d with
      | number r => exact key (some r)
      | nan => exact key none
      | raises => exact ⟨hrefl, fun _ _ ⟨_, h⟩ => by simp at h⟩

theorem pipeline_grows (temp : K) (reference : Material K) (w : Dimension → K) (ds : List Dimension) :
    ∀ (m : Memo K) (l : List (Material K × K)), Grows m (pipeline temp reference w ds m l).1 := by
  induction ds with
  | nil => intro m l; exact fun _ _ h => h
  | cons d ds ih =>
    intro m l
    have h := (step_grows temp reference w d m l).1
    unfold pipeline
    generalize step temp reference w d m l = a at h
    obtain ⟨a1, a2⟩ := a
    cases a2 with
    | ok l' => exact h.trans (ih _ _)
    | raised => exact h
    | undefined => exact h

end Verif.MaterialRef
