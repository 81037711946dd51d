import Verif.Reader.PointProps

/-!
# Asking twice

Property C286.
-/

set_option linter.unusedSimpArgs false
set_option linter.unusedVariables false
set_option linter.unusedSectionVars false

namespace Verif.Reader

section
variable {K : Type} [Field K] [LinearOrder K] [IsStrictOrderedRing K]

/-- Windows that have all those of others. -/
def Extends (W ws : Windows) : Prop := ∀ a win, ws.lookup a = some win → W.lookup a = some win

theorem extractRaw_again {windows ws W : Windows} {signal time : Column K} {frequency : K} {w : Wave K}
    (h : extractRaw windows signal time frequency = (ws, .ok w)) (hW : Extends W ws) :
    extractRaw W signal time frequency = (W, .ok w) := by
  obtain ⟨hl, hne, win, hlook, hcut, _⟩ := extractRaw_inv h
  rw [extractRaw_cached (hW _ _ hlook) hl hne, hcut]

theorem extract_again {sampled : Wave K → K → Option (Wave K)} {windows ws W : Windows} {signal time : Column K} {frequency : K} {x : Wave K}
    (h : extract sampled windows signal time frequency = (ws, .ok x)) (hW : Extends W ws) :
    extract sampled W signal time frequency = (W, .ok x) := by
  obtain ⟨w, hraw, hs⟩ := extract_inv h
  unfold extract
  rw [extractRaw_again hraw hW]
  simp only [hs]

theorem excite_again {sampled : Wave K → K → Option (Wave K)} {time : Column K} {frequency : K} {i : Nat} {cols : List (Column K)}
    {ws ws' W : Windows} {e e' : Excitation K} (h : excite sampled time frequency i ws e cols = (ws', .ok e')) (hW : Extends W ws') :
    excite sampled time frequency i W e cols = (W, .ok e') := by
  induction cols generalizing ws e with
  | nil => simp [excite] at h ⊢; exact h.2
  | cons c r ih =>
    rw [excite] at h ⊢
    cases hg : gives i c with
    | none => rw [hg] at h; exact ih h
    | some k =>
      rw [hg] at h
      simp only at h ⊢
      rcases hx : extract sampled ws c time frequency with ⟨ws1, _ | _ | _⟩
      · rw [hx] at h
        simp only at h
        rw [extract_again hx fun a win ha => hW a win ((excite_spec h).1 a win ha)]
        exact ih h
      · rw [hx] at h; simp at h
      · rw [hx] at h; simp at h

theorem exciteAll_again {sampled : Wave K → K → Option (Wave K)} {timeOf : Nat → Column K} {frequency : K} {cols : List (Column K)}
    {ids : List Nat} {ws ws' W : Windows} {xs : List (Excitation K)}
    (h : exciteAll sampled timeOf frequency cols ws ids = (ws', .ok xs)) (hW : Extends W ws') :
    exciteAll sampled timeOf frequency cols W ids = (W, .ok xs) := by
  induction ids generalizing ws xs with
  | nil => simp [exciteAll] at h ⊢; exact h.2
  | cons i r ih =>
    rw [exciteAll] at h ⊢
    rcases hx : excite sampled (timeOf i) frequency i ws {} cols with ⟨ws1, x | _ | _⟩
    · rw [hx] at h
      simp only at h
      rcases hr : exciteAll sampled timeOf frequency cols ws1 r with ⟨ws2, ys | _ | _⟩
      · rw [hr] at h
        simp only [Prod.mk.injEq, Res.ok.injEq] at h
        obtain ⟨rfl, rfl⟩ := h
        rw [excite_again hx fun a win ha => hW a win ((exciteAll_spec hr).1 a win ha)]
        simp only [ih hr]
      · rw [hr] at h; simp at h
      · rw [hr] at h; simp at h
    · rw [hx] at h; simp at h
    · rw [hx] at h; simp at h

/-! ## Recognising again -/

/-- A column with the kind recognised from the windows. -/
def kinded (time : Column K) (frequency : K) (W : Windows) (c : Column K) : Column K :=
  { c with kind := match (extractRaw W c time frequency).2 with
      | .ok w => some ((kindByName c.name).getD (kindByData 100 w.data))
      | _ => none }

theorem typed_keeps {time : Column K} {frequency : K} {cols cs : List (Column K)} {ws ws' : Windows}
    (h : typed time frequency ws cols = (ws', .ok cs)) : Extends ws' ws := by
  induction cols generalizing ws cs with
  | nil => simp [typed] at h; rw [h.1]; exact fun _ _ h => h
  | cons c r ih =>
    rw [typed] at h
    rcases ht : canBeTime c.data with _ | _ | _
    · rw [ht] at h; simp at h
    · rw [ht] at h
      simp only at h
      rcases hx : extractRaw ws c time frequency with ⟨ws1, w | _ | _⟩
      · rw [hx] at h
        simp only at h
        rcases hr : typed time frequency ws1 r with ⟨ws2, cs' | _ | _⟩
        · rw [hr] at h
          simp only [Prod.mk.injEq, Res.ok.injEq] at h
          obtain ⟨rfl, rfl⟩ := h
          exact fun a win ha => ih hr a win (extractRaw_keeps hx ha)
        · rw [hr] at h; simp at h
        · rw [hr] at h; simp at h
      · rw [hx] at h; simp at h
      · rw [hx] at h; simp at h
    · rw [ht] at h; exact ih h

theorem typed_map {time : Column K} {frequency : K} {cols cs : List (Column K)} {ws ws' W : Windows}
    (h : typed time frequency ws cols = (ws', .ok cs)) (hW : Extends W ws') (hs : ∀ c ∈ cols, canBeTime c.data = some false) :
    cs = cols.map (kinded time frequency W) ∧ typed time frequency W cs = (W, .ok cs) := by
  induction cols generalizing ws cs with
  | nil => simp [typed] at h; obtain ⟨_, rfl⟩ := h; simp [typed]
  | cons c r ih =>
    rw [typed] at h
    have ht := hs c (by simp)
    rw [ht] at h
    simp only at h
    rcases hx : extractRaw ws c time frequency with ⟨ws1, w | _ | _⟩
    · rw [hx] at h
      simp only at h
      rcases hr : typed time frequency ws1 r with ⟨ws2, cs' | _ | _⟩
      · rw [hr] at h
        simp only [Prod.mk.injEq, Res.ok.injEq] at h
        obtain ⟨rfl, rfl⟩ := h
        obtain ⟨h1, h2⟩ := ih hr (fun c hc => hs c (by simp [hc]))
        have hagain : extractRaw W c time frequency = (W, .ok w) :=
          extractRaw_again hx fun a win ha => hW a win (typed_keeps hr a win ha)
        constructor
        · rw [List.map_cons, ← h1]
          congr 1
          simp [kinded, hagain]
        · rw [typed]
          simp only [ht]
          have e : extractRaw W { c with kind := some ((kindByName c.name).getD (kindByData 100 w.data)) } time frequency =
            extractRaw W c time frequency := rfl
          rw [e, hagain]
          simp only [h2]
      · rw [hr] at h; simp at h
      · rw [hr] at h; simp at h
    · rw [hx] at h; simp at h
    · rw [hx] at h; simp at h

theorem byWinding_cons (cols : List (Column K)) (m : Nat) (r : List Nat) (j : Nat) :
    byWinding cols (m :: r) j = (cols.filter (hasNumber m)).map (ofWinding j) ++ byWinding cols r (j + 1) := by
  unfold byWinding; rw [List.zipIdx_cons, List.flatMap_cons]

theorem byWinding_map (g : Column K → Column K) (hg : ∀ c n, hasNumber n (g c) = hasNumber n c) (hw : ∀ c k, g (ofWinding k c) = ofWinding k (g c))
    (cols : List (Column K)) (numbers : List Nat) (j : Nat) :
    (byWinding cols numbers j).map g = byWinding (cols.map g) numbers j := by
  induction numbers generalizing j with
  | nil => rfl
  | cons m r ih =>
    rw [byWinding_cons, byWinding_cons, List.map_append, ih, List.map_map, List.filter_map, List.map_map]
    congr 1
    have e : (hasNumber m ∘ g) = hasNumber m := funext fun c => hg c m
    rw [e]
    exact List.map_congr_left fun c _ => hw c j

theorem filter_ofWinding (n j : Nat) (cols : List (Column K)) :
    ((cols.map (ofWinding j)).filter (hasNumber n)) = (cols.filter (hasNumber n)).map (ofWinding j) := by
  rw [List.filter_map]; rfl

theorem filter_two {m n : Nat} (h : m ≠ n) (cols : List (Column K)) : (cols.filter (hasNumber m)).filter (hasNumber n) = [] := by
  rw [List.filter_eq_nil_iff]
  intro c hc hn
  have hm := (List.mem_filter.1 hc).2
  simp only [hasNumber, Bool.and_eq_true, beq_iff_eq] at hm hn
  rw [hm.2] at hn; simp at hn; exact h hn.2

theorem byWinding_filter_out {n : Nat} {numbers : List Nat} (h : n ∉ numbers) (cols : List (Column K)) (j : Nat) :
    (byWinding cols numbers j).filter (hasNumber n) = [] := by
  induction numbers generalizing j with
  | nil => rfl
  | cons m r ih =>
    have hm : m ≠ n := fun e => h (by simp [e])
    rw [byWinding_cons, List.filter_append, filter_ofWinding, filter_two hm, ih (fun hc => h (by simp [hc]))]
    rfl

theorem byWinding_filter {n : Nat} {numbers : List Nat} (hnd : numbers.Nodup) (h : n ∈ numbers) (cols : List (Column K)) (j k : Nat) :
    ((byWinding cols numbers j).filter (hasNumber n)).map (ofWinding k) = (cols.filter (hasNumber n)).map (ofWinding k) := by
  induction numbers generalizing j with
  | nil => simp at h
  | cons m r ih =>
    have hmr := (List.nodup_cons.1 hnd).1
    rw [byWinding_cons, List.filter_append, filter_ofWinding]
    by_cases hm : m = n
    · subst hm
      rw [byWinding_filter_out hmr, List.append_nil, List.filter_filter, List.map_map]
      simp only [Bool.and_self]
      rfl
    · rw [filter_two hm, List.map_nil, List.nil_append]
      exact ih (List.nodup_cons.1 hnd).2 ((List.mem_cons.1 h).resolve_left (Ne.symm hm)) _

theorem byWinding_idem {numbers : List Nat} (hnd : numbers.Nodup) (cols : List (Column K)) :
    byWinding (byWinding cols numbers 0) numbers 0 = byWinding cols numbers 0 := by
  have key : ∀ (l : List Nat) (j : Nat), (∀ n ∈ l, n ∈ numbers) → byWinding (byWinding cols numbers 0) l j = byWinding cols l j := by
    intro l
    induction l with
    | nil => intro j _; rfl
    | cons m r ih =>
      intro j hl
      rw [byWinding_cons, byWinding_cons, byWinding_filter hnd (hl m (by simp)), ih _ (fun n hn => hl n (by simp [hn]))]
  exact key numbers 0 fun _ h => h

theorem sorted_ext {a b : List Nat} (ha : a.Pairwise (· < ·)) (hb : b.Pairwise (· < ·)) (h : ∀ n, n ∈ a ↔ n ∈ b) : a = b := by
  have hp : a.Perm b := (List.perm_ext_iff_of_nodup (ha.imp fun h => Nat.ne_of_lt h) (hb.imp fun h => Nat.ne_of_lt h)).2 h
  exact hp.eq_of_pairwise (fun x y _ _ h1 h2 => by omega) ha hb

theorem windingIndexes_again {cols : List (Column K)} {numbers : List Nat} (hs : numbers.Pairwise (· < ·))
    (hm : ∀ n, n ∈ numbers ↔ ∃ c ∈ cols, hasNumber n c = true) :
    windingIndexes (byWinding cols numbers 0) = .ok (byWinding cols numbers 0) := by
  have hnd : numbers.Nodup := hs.imp fun h => Nat.ne_of_lt h
  have hmem : ∀ c ∈ byWinding cols numbers 0, c.data ≠ [] ∧ numberOf c.name ≠ none := by
    intro c hc
    obtain ⟨i, n, _, _, hn⟩ := mem_byWinding hc
    simp only [hasNumber, Bool.and_eq_true, beq_iff_eq] at hn
    exact ⟨fun h0 => by rw [h0] at hn; simp [canBeTime] at hn, by simp [hn.2]⟩
  obtain ⟨cs, hcs⟩ := (windings_refused _).2.2 hmem
  obtain ⟨numbers2, hs2, hm2, rfl⟩ := windings_compact hcs
  have : numbers2 = numbers := by
    refine sorted_ext hs2 hs fun n => ?_
    rw [hm2]
    constructor
    · rintro ⟨c, hc, hn⟩
      obtain ⟨i, m, hi, _, hm'⟩ := mem_byWinding hc
      have : m = n := by
        simp only [hasNumber, Bool.and_eq_true, beq_iff_eq] at hn hm'
        rw [hn.2] at hm'; simp at hm'; exact hm'.2.symm
      subst this
      exact List.mem_of_getElem? hi
    · intro hn
      obtain ⟨c, hc, hcn⟩ := (hm n).1 hn
      have hmemf : ofWinding 0 c ∈ (cols.filter (hasNumber n)).map (ofWinding 0) :=
        List.mem_map.2 ⟨c, List.mem_filter.2 ⟨hc, hcn⟩, rfl⟩
      rw [← byWinding_filter hnd hn cols 0 0] at hmemf
      obtain ⟨x, hx, _⟩ := List.mem_map.1 hmemf
      exact ⟨x, (List.mem_filter.1 hx).1, (List.mem_filter.1 hx).2⟩
  subst this
  rw [hcs, byWinding_idem hnd]

theorem recognise_again {r r1 : Reader K} {frequency : K} (h : recognise r frequency = (r1, .ok ())) {W : Windows} (hW : Extends W r1.windows) :
    recognise { r1 with windows := W } frequency = ({ r1 with windows := W }, .ok ()) := by
  unfold recognise at h
  rcases hw : windingIndexes r.columns with cs | _ | _
  · rw [hw] at h
    simp only at h
    rcases ht : typed r.time frequency r.windows cs with ⟨ws, cs' | _ | _⟩
    · rw [ht] at h
      simp only [Prod.mk.injEq] at h
      obtain ⟨rfl, _⟩ := h
      obtain ⟨numbers, hs, hm, rfl⟩ := windings_compact hw
      have hsig : ∀ c ∈ byWinding r.columns numbers 0, canBeTime c.data = some false := by
        intro c hc
        obtain ⟨i, n, _, _, hn⟩ := mem_byWinding hc
        simp only [hasNumber, Bool.and_eq_true, beq_iff_eq] at hn
        exact hn.1
      obtain ⟨h1, h2⟩ := typed_map ht hW hsig
      have hcs' : cs' = byWinding (r.columns.map (kinded r.time frequency W)) numbers 0 := by
        rw [h1, byWinding_map (kinded r.time frequency W) (fun c n => rfl) (fun c k => rfl)]
      have hm' : ∀ n, n ∈ numbers ↔ ∃ c ∈ r.columns.map (kinded r.time frequency W), hasNumber n c = true := by
        intro n
        rw [hm]
        constructor
        · rintro ⟨c, hc, hn⟩; exact ⟨_, List.mem_map.2 ⟨c, hc, rfl⟩, hn⟩
        · rintro ⟨x, hx, hn⟩
          obtain ⟨c, hc, rfl⟩ := List.mem_map.1 hx
          exact ⟨c, hc, hn⟩
      have hi : windingIndexes cs' = .ok cs' := by rw [hcs']; exact windingIndexes_again hs hm'
      unfold recognise
      simp only [hi, h2]
    · rw [ht] at h; simp at h
    · rw [ht] at h; simp at h
  · rw [hw] at h; simp at h
  · rw [hw] at h; simp at h

/-- **C286.** A reader asked twice for the operating point of the same windings at the same frequency gives the same one, and is left as after the
first. -/
theorem asked_twice {sampled : Wave K → K → Option (Wave K)} {r r' : Reader K} {n : Nat} {frequency : K} {es : List (Excitation K)}
    (h : operatingPoint sampled r n frequency none = (r', .ok es)) :
    operatingPoint sampled r' n frequency none = (r', .ok es) := by
  unfold operatingPoint at h ⊢
  simp only at h ⊢
  rcases hrec : recognise r frequency with ⟨r1, _ | _ | _⟩
  · rw [hrec] at h
    simp only at h
    rcases hx : exciteAll sampled (fun _ => r1.time) frequency r1.columns r1.windows (List.range n) with ⟨ws, xs | _ | _⟩
    · rw [hx] at h
      simp only [Prod.mk.injEq, Res.ok.injEq] at h
      obtain ⟨rfl, rfl⟩ := h
      rw [recognise_again hrec (exciteAll_spec hx).1]
      simp only
      rw [exciteAll_again hx fun _ _ h => h]
    · rw [hx] at h; simp at h
    · rw [hx] at h; simp at h
  · rw [hrec] at h; simp at h
  · rw [hrec] at h; simp at h

/-- **C286.** And the names it tells of the columns are the same before and after. -/
theorem named_twice {r r' : Reader K} {n : Nat} {frequency : K} {names : List Names} (h : mapColumnNames r n frequency = (r', .ok names)) :
    mapColumnNames r' n frequency = (r', .ok names) := by
  unfold mapColumnNames at h ⊢
  rcases hrec : recognise r frequency with ⟨r1, _ | _ | _⟩
  · rw [hrec] at h
    simp only [Prod.mk.injEq, Res.ok.injEq] at h
    obtain ⟨rfl, rfl⟩ := h
    have := recognise_again hrec (W := r1.windows) (fun _ _ h => h)
    rw [this]
  · rw [hrec] at h; simp at h
  · rw [hrec] at h; simp at h

end

/-- Case of `asked_twice`. -/
example : (operatingPoint asIs exampleReader 1 (1 / 4) none).2 =
    .ok [{ frequency := some (1 / 4), voltage := some { time := [0, 1, 2, 3, 4], data := [1, -1, -1, 1, 1] } }] := by decide +kernel

end Verif.Reader
