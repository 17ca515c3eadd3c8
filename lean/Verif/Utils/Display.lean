import Verif.Basic.Image
import Mathlib.Data.List.Nodup
import Mathlib.Data.List.Count
/-
Model and properties of the event loop of `display_multiple_images` (src/window.rs:33-180): which windows are
visible, for which window size each image is painted, and when the function returns (C144).  Creating windows,
their positions on the screen and painting are SDL's and not modelled; where in the window an image is painted
is C141.
-/
namespace Verif.Utils

/-- What the loop distinguishes in an event, window.rs:130-176.  `close id` is the key Q pressed in the window
`id` or a request to close it; `quit` is a quit event or the escape key. -/
inductive Event where
  | quit
  | close (id : Nat)
  | resize (id w h : Nat)
  | other

/-- `window_visibility`, `hidden_count`, and the size for which each window was painted last. -/
structure Display where
  visible : Nat → Bool
  hidden : Nat
  size : Nat → Nat × Nat

/-- State before the loop, window.rs:41-123: every window is visible and painted for the requested size, which
is raised to 150. -/
def Display.start (w h : Nat) : Display := ⟨fun _ => true, 0, fun _ => (max w 150, max h 150)⟩

/-- The loop over the windows for a close event, window.rs:146-155, from window number `i` on; `n` is the number
of images.  The flag is `break 'running`. -/
def closeLoop (n id : Nat) : List Nat → Nat → Display → Display × Bool
  | [], _, s => (s, false)
  | w :: ws, i, s =>
    let s := if id = w then { s with visible := fun j => if j = i then false else s.visible j
                                     hidden := s.hidden + 1 } else s
    if s.hidden = n then (s, true) else closeLoop n id ws (i + 1) s

/-- The loop over the windows for a resize event, window.rs:162-174. -/
def resizeLoop (id w h : Nat) : List Nat → Nat → Display → Display
  | [], _, s => s
  | v :: ws, i, s =>
    resizeLoop id w h ws (i + 1)
      (if id = v then { s with size := fun j => if j = i then (w, h) else s.size j } else s)

/-- One event, window.rs:130-177; `ids` are the identifiers of the windows in order. -/
def handle (ids : List Nat) (s : Display) : Event → Display × Bool
  | .quit => (s, true)
  | .close id => closeLoop ids.length id ids 0 s
  | .resize id w h => (resizeLoop id w h ids 0 s, false)
  | .other => (s, false)

/-- The event loop, window.rs:128-179, on a finite sequence of events: the state, and whether the loop has been
left. -/
def runEvents (ids : List Nat) : List Event → Display → Display × Bool
  | [], s => (s, false)
  | e :: es, s => if (handle ids s e).2 then ((handle ids s e).1, true) else runEvents ids es (handle ids s e).1

/-- `display_multiple_images`, window.rs:33-180, on a finite sequence of events.  Without images it returns at
once (lines 37-39). -/
def displayImages (ids : List Nat) (w h : Nat) (es : List Event) : Display × Bool :=
  if ids = [] then (.start w h, true) else runEvents ids es (.start w h)

/-! ### Specification -/

/-- The event closes one of the windows. -/
def closes (ids : List Nat) : Event → Bool
  | .close id => ids.contains id
  | _ => false

/-- The event closes the window `id`. -/
def closesWindow (id : Nat) : Event → Bool
  | .close j => j == id
  | _ => false

/-- The size `s` is that of the last resize event of the window `id`, or `s₀` if there is none. -/
def LastSize (id : Nat) (s₀ s : Nat × Nat) (es : List Event) : Prop :=
  ((∀ w h, .resize id w h ∉ es) ∧ s = s₀) ∨
    ∃ pre post, es = pre ++ .resize id s.1 s.2 :: post ∧ ∀ w h, .resize id w h ∉ post

/-! ### One event -/

theorem closeLoop_spec (n id : Nat) : ∀ (ws : List Nat) (i : Nat) (s : Display), ws.Nodup → s.hidden < n →
    closeLoop n id ws i s =
      if id ∈ ws then
        (⟨fun j => if j = i + ws.idxOf id then false else s.visible j, s.hidden + 1, s.size⟩,
          decide (s.hidden + 1 = n))
      else (s, false) := by
  intro ws
  induction ws with
  | nil => intro i s _ _; simp [closeLoop]
  | cons w ws ih =>
    intro i s hn hs
    rw [List.nodup_cons] at hn
    unfold closeLoop
    by_cases h : id = w
    · subst h
      simp only [if_true]
      by_cases h2 : s.hidden + 1 = n
      · simp [h2]
      · rw [if_neg h2, ih _ _ hn.2 (by dsimp only; omega), if_neg hn.1]
        simp [h2]
    · simp only [if_neg h]
      rw [if_neg (by omega), ih _ _ hn.2 hs]
      have e : List.idxOf id (w :: ws) = ws.idxOf id + 1 := List.idxOf_cons_ne ws (fun e => h e.symm)
      simp only [List.mem_cons, h, false_or, e]
      have e2 : i + 1 + ws.idxOf id = i + (ws.idxOf id + 1) := by omega
      rw [e2]

theorem resizeLoop_spec (id w h : Nat) : ∀ (ws : List Nat) (i : Nat) (s : Display), ws.Nodup →
    resizeLoop id w h ws i s =
      if id ∈ ws then ⟨s.visible, s.hidden, fun j => if j = i + ws.idxOf id then (w, h) else s.size j⟩
      else s := by
  intro ws
  induction ws with
  | nil => intro i s _; simp [resizeLoop]
  | cons v ws ih =>
    intro i s hn
    rw [List.nodup_cons] at hn
    unfold resizeLoop
    rw [ih _ _ hn.2]
    by_cases h : id = v
    · subst h
      simp [hn.1]
    · have e : List.idxOf id (v :: ws) = ws.idxOf id + 1 := List.idxOf_cons_ne ws (fun e => h e.symm)
      simp only [List.mem_cons, h, false_or, e, if_false]
      have e2 : i + 1 + ws.idxOf id = i + (ws.idxOf id + 1) := by omega
      rw [e2]

/-! ### Sequences of events -/

theorem LastSize_snoc {id : Nat} {s₀ s : Nat × Nat} {es : List Event} (e : Event)
    (h : LastSize id s₀ s es) (he : ∀ w h, e ≠ .resize id w h) : LastSize id s₀ s (es ++ [e]) := by
  rcases h with ⟨h1, h2⟩ | ⟨pre, post, h1, h2⟩
  · refine Or.inl ⟨fun w h hm => ?_, h2⟩
    rcases List.mem_append.1 hm with hm | hm
    · exact h1 w h hm
    · exact he w h (List.mem_singleton.1 hm).symm
  · refine Or.inr ⟨pre, post ++ [e], by rw [h1]; simp, fun w h hm => ?_⟩
    rcases List.mem_append.1 hm with hm | hm
    · exact h2 w h hm
    · exact he w h (List.mem_singleton.1 hm).symm

/-- State after the events `es`, none of which made the loop end. -/
def Reached (ids : List Nat) (s₀ : Nat × Nat) (es : List Event) (s : Display) : Prop :=
  .quit ∉ es ∧ s.hidden = es.countP (closes ids) ∧ s.hidden < ids.length ∧
  ∀ i, (hi : i < ids.length) →
    (s.visible i = true ↔ .close ids[i] ∉ es) ∧ LastSize ids[i] s₀ (s.size i) es

theorem idxOf_eq {ids : List Nat} (hn : ids.Nodup) {i : Nat} (hi : i < ids.length) {id : Nat} :
    i = ids.idxOf id ∧ id ∈ ids ↔ ids[i] = id := by
  constructor
  · rintro ⟨h, hm⟩
    subst h
    exact List.getElem_idxOf _
  · intro h
    subst h
    exact ⟨(hn.idxOf_getElem i hi).symm, List.getElem_mem _⟩

theorem handle_reached {ids : List Nat} (hn : ids.Nodup) {s₀ : Nat × Nat} {es : List Event} {s : Display}
    (h : Reached ids s₀ es s) (e : Event) :
    ((handle ids s e).2 = true ↔ e = .quit ∨ ids.length ≤ (es ++ [e]).countP (closes ids)) ∧
    ((handle ids s e).2 = false → Reached ids s₀ (es ++ [e]) (handle ids s e).1) := by
  obtain ⟨h1, h2, h3, h4⟩ := h
  cases e with
  | quit => simp [handle]
  | other =>
    refine ⟨?_, fun _ => ⟨?_, ?_, h3, fun i hi => ⟨?_, ?_⟩⟩⟩
    · simp [handle, List.countP_append, closes]; omega
    · simp [h1]
    · simp [handle, List.countP_append, closes, h2]
    · simpa [handle] using (h4 i hi).1
    · exact LastSize_snoc _ (h4 i hi).2 (by simp)
  | resize id w hh =>
    have hr := resizeLoop_spec id w hh ids 0 s hn
    refine ⟨?_, fun _ => ?_⟩
    · simp [handle, List.countP_append, closes]; omega
    · show Reached ids s₀ _ (resizeLoop id w hh ids 0 s)
      rw [hr]
      by_cases hm : id ∈ ids
      · rw [if_pos hm]
        refine ⟨by simp [h1], by simp [List.countP_append, closes, h2], h3, fun i hi => ⟨?_, ?_⟩⟩
        · simpa using (h4 i hi).1
        · dsimp only
          have hx := idxOf_eq hn hi (id := id)
          rw [Nat.zero_add]
          by_cases hid : ids[i] = id
          · rw [if_pos (hx.2 hid).1]
            exact Or.inr ⟨es, [], by rw [hid], by simp⟩
          · rw [if_neg (fun e => hid (hx.1 ⟨e, hm⟩))]
            refine LastSize_snoc _ (h4 i hi).2 fun a b e => ?_
            injection e with e1
            exact hid e1.symm
      · rw [if_neg hm]
        refine ⟨by simp [h1], by simp [List.countP_append, closes, h2], h3, fun i hi => ⟨?_, ?_⟩⟩
        · simpa using (h4 i hi).1
        · refine LastSize_snoc _ (h4 i hi).2 fun a b e => ?_
          injection e with e1
          exact hm (e1 ▸ List.getElem_mem _)
  | close id =>
    have hr := closeLoop_spec ids.length id ids 0 s hn h3
    show ((closeLoop ids.length id ids 0 s).2 = true ↔ _) ∧
      ((closeLoop ids.length id ids 0 s).2 = false → Reached ids s₀ _ (closeLoop ids.length id ids 0 s).1)
    rw [hr]
    by_cases hm : id ∈ ids
    · rw [if_pos hm]
      have hc : (es ++ [Event.close id]).countP (closes ids) = s.hidden + 1 := by
        simp [List.countP_append, closes, h2, hm]
      refine ⟨?_, fun hf => ⟨by simp [h1], hc.symm, ?_, fun i hi => ⟨?_, ?_⟩⟩⟩
      · rw [hc]; simp; omega
      · simp only [decide_eq_false_iff_not] at hf; dsimp only; omega
      · dsimp only
        have hx := idxOf_eq hn hi (id := id)
        rw [Nat.zero_add]
        by_cases hid : ids[i] = id
        · rw [if_pos (hx.2 hid).1]
          simp [hid]
        · rw [if_neg (fun e => hid (hx.1 ⟨e, hm⟩)), (h4 i hi).1]
          simp [hid]
      · exact LastSize_snoc _ (h4 i hi).2 (by simp)
    · rw [if_neg hm]
      have hc : (es ++ [Event.close id]).countP (closes ids) = s.hidden := by
        simp [List.countP_append, closes, h2, hm]
      refine ⟨?_, fun hf => ⟨by simp [h1], hc.symm, h3, fun i hi => ⟨?_, ?_⟩⟩⟩
      · rw [hc]; simp; omega
      · have hid : ids[i] ≠ id := fun e => hm (e ▸ List.getElem_mem _)
        rw [(h4 i hi).1]
        simp [hid]
      · exact LastSize_snoc _ (h4 i hi).2 (by simp)

theorem run_reached {ids : List Nat} (hn : ids.Nodup) {s₀ : Nat × Nat} :
    ∀ (es pre : List Event) (s : Display), Reached ids s₀ pre s →
    ((runEvents ids es s).2 = true ↔ .quit ∈ es ∨ ids.length ≤ (pre ++ es).countP (closes ids)) ∧
    ((runEvents ids es s).2 = false → Reached ids s₀ (pre ++ es) (runEvents ids es s).1) := by
  intro es
  induction es with
  | nil =>
    intro pre s h
    have := h.2.1
    have := h.2.2.1
    refine ⟨?_, fun _ => by simpa [runEvents] using h⟩
    simp [runEvents]; omega
  | cons e es ih =>
    intro pre s h
    obtain ⟨k1, k2⟩ := handle_reached hn h e
    unfold runEvents
    by_cases hb : (handle ids s e).2 = true
    · rw [if_pos hb]
      refine ⟨?_, by simp⟩
      have := k1.1 hb
      refine ⟨fun _ => ?_, fun _ => rfl⟩
      rcases this with h | h
      · exact Or.inl (by simp [h])
      · refine Or.inr (Nat.le_trans h ?_)
        simp only [List.countP_append, List.countP_cons, List.countP_nil]
        omega
    · rw [if_neg hb]
      obtain ⟨i1, i2⟩ := ih (pre ++ [e]) _ (k2 (by simpa using hb))
      simp only [List.append_assoc, List.singleton_append] at i1 i2
      refine ⟨?_, i2⟩
      rw [i1]
      have hq : e ≠ .quit := fun h => hb (k1.2 (Or.inl h))
      simp [Ne.symm hq]

theorem reached_start {ids : List Nat} (h : ids ≠ []) (w hh : Nat) :
    Reached ids (max w 150, max hh 150) [] (.start w hh) := by
  refine ⟨by simp, rfl, List.length_pos_iff.2 h, fun i _ => ⟨by simp [Display.start], Or.inl ⟨by simp, rfl⟩⟩⟩

/-- **C144.** Displaying images returns as soon as a quit event arrived or as many close events for its windows
as there are windows; repeated events for the same window count again. -/
theorem C144_returns (ids : List Nat) (hn : ids.Nodup) (h : ids ≠ []) (w hh : Nat) (es : List Event) :
    (displayImages ids w hh es).2 = true ↔ .quit ∈ es ∨ ids.length ≤ es.countP (closes ids) := by
  unfold displayImages
  rw [if_neg h]
  simpa using (run_reached hn es [] _ (reached_start h w hh)).1

/-- **C144.** Without images the function returns at once. -/
theorem C144_empty (w hh : Nat) (es : List Event) : (displayImages [] w hh es).2 = true := by
  simp [displayImages]

/-- **C144.** As long as the function has not returned, a window is visible exactly if it has not been closed,
and its image is painted for the size of its last resize event; before the first one that is the requested size,
at least 150 by 150. -/
theorem C144_windows (ids : List Nat) (hn : ids.Nodup) (w hh : Nat) (es : List Event)
    (h : (displayImages ids w hh es).2 = false) (i : Nat) (hi : i < ids.length) :
    ((displayImages ids w hh es).1.visible i = true ↔ .close ids[i] ∉ es) ∧
    LastSize ids[i] (max w 150, max hh 150) ((displayImages ids w hh es).1.size i) es := by
  have h0 : ids ≠ [] := List.ne_nil_of_length_pos (by omega)
  unfold displayImages at h ⊢
  rw [if_neg h0] at h ⊢
  have := (run_reached hn es [] _ (reached_start h0 w hh)).2 h
  simpa using this.2.2.2 i hi

/-- The claim expected of the event loop: it ends on a quit event or when every window has been closed. -/
def EndsWhenAllClosed (ids : List Nat) (es : List Event) : Prop :=
  ∀ w h, (displayImages ids w h es).2 = true ↔ .quit ∈ es ∨ ∀ id ∈ ids, .close id ∈ es

/-- **C144, negation.** Pressing Q twice in the first of two windows ends the display although the second window
is open. -/
theorem C144_negation : ¬ EndsWhenAllClosed [1, 2] [.close 1, .close 1] := by
  intro h
  have := (h 0 0).1 (by decide)
  simp at this

theorem countP_closes_eq_sum : ∀ (ids : List Nat), ids.Nodup → ∀ es : List Event,
    es.countP (closes ids) = (ids.map fun id => es.countP (closesWindow id)).sum := by
  intro ids
  induction ids with
  | nil =>
    intro _ es
    simp only [List.map_nil, List.sum_nil, List.countP_eq_zero]
    intro e _
    cases e <;> simp [closes]
  | cons v vs ih =>
    intro hn es
    rw [List.nodup_cons] at hn
    rw [List.map_cons, List.sum_cons, ← ih hn.2]
    induction es with
    | nil => simp
    | cons e es ih2 =>
      simp only [List.countP_cons, ih2]
      have : (if closes (v :: vs) e = true then 1 else 0) =
          (if closesWindow v e = true then 1 else 0) + (if closes vs e = true then 1 else 0) := by
        cases e with
        | close j =>
          by_cases hj : j = v
          · subst hj; simp [closes, closesWindow, hn.1]
          · simp [closes, closesWindow, hj]
        | _ => simp [closes, closesWindow]
      omega

theorem sum_le_one : ∀ (ids : List Nat) (f : Nat → Nat), (∀ id ∈ ids, f id ≤ 1) →
    (ids.length ≤ (ids.map f).sum ↔ ∀ id ∈ ids, 1 ≤ f id) := by
  intro ids f
  have hle : ∀ l : List Nat, (∀ id ∈ l, f id ≤ 1) → (l.map f).sum ≤ l.length := by
    intro l
    induction l with
    | nil => simp
    | cons a l ih =>
      intro h
      simp only [List.mem_cons, forall_eq_or_imp] at h
      have := ih h.2
      simp only [List.map_cons, List.sum_cons, List.length_cons]
      omega
  induction ids with
  | nil => simp
  | cons a l ih =>
    intro h
    simp only [List.mem_cons, forall_eq_or_imp] at h ⊢
    have h1 := ih h.2
    have h2 := hle l h.2
    simp only [List.map_cons, List.sum_cons, List.length_cons]
    rw [← h1]
    omega

/-- **C144, partial.** If no window receives a second close event, the display ends exactly on a quit event or
when every window has been closed.  Missing for the full claim: repeated close events, which end it too early
(`C144_negation`). -/
theorem C144_ends_partial (ids : List Nat) (hn : ids.Nodup) (es : List Event)
    (h1 : ∀ id ∈ ids, es.countP (closesWindow id) ≤ 1) : EndsWhenAllClosed ids es := by
  intro w hh
  by_cases h : ids = []
  · subst h; simp [C144_empty]
  rw [C144_returns ids hn h, countP_closes_eq_sum ids hn, sum_le_one ids _ h1]
  refine or_congr Iff.rfl (forall₂_congr fun id _ => ?_)
  rw [Nat.succ_le_iff, List.countP_pos_iff]
  constructor
  · rintro ⟨e, he, hc⟩
    cases e with
    | close j =>
      simp only [closesWindow, beq_iff_eq] at hc
      exact hc ▸ he
    | _ => simp [closesWindow] at hc
  · intro he
    exact ⟨_, he, by simp [closesWindow]⟩

/-- It never ends too late: once every window has been closed the function has returned. -/
theorem C144_not_late (ids : List Nat) (hn : ids.Nodup) (w hh : Nat) (es : List Event)
    (h : ∀ id ∈ ids, .close id ∈ es) : (displayImages ids w hh es).2 = true := by
  by_cases h0 : ids = []
  · subst h0; exact C144_empty w hh es
  rw [C144_returns ids hn h0, countP_closes_eq_sum ids hn]
  refine Or.inr ?_
  have : ∀ l : List Nat, (∀ id ∈ l, 1 ≤ es.countP (closesWindow id)) →
      l.length ≤ (l.map fun id => es.countP (closesWindow id)).sum := by
    intro l
    induction l with
    | nil => simp
    | cons a l ih =>
      intro hl
      simp only [List.mem_cons, forall_eq_or_imp] at hl
      have := ih hl.2
      simp only [List.map_cons, List.sum_cons, List.length_cons]
      omega
  refine this ids fun id hid => List.countP_pos_iff.2 ⟨_, h id hid, by simp [closesWindow]⟩

/-- Three windows with identifiers 7, 3, 5: after a resize and two close events the third is still shown, at its
new size; closing it as well ends the display. -/
example : (displayImages [7, 3, 5] 640 100 [.resize 5 300 200, .close 7, .other, .close 3]).2 = false ∧
    (displayImages [7, 3, 5] 640 100 [.resize 5 300 200, .close 7, .other, .close 3]).1.visible 2 = true ∧
    (displayImages [7, 3, 5] 640 100 [.resize 5 300 200, .close 7, .other, .close 3]).1.size 2 = (300, 200) ∧
    (displayImages [7, 3, 5] 640 100 []).1.size 1 = (640, 150) ∧
    (displayImages [7, 3, 5] 640 100 [.resize 5 300 200, .close 7, .other, .close 3, .close 5]).2 = true := by
  decide

end Verif.Utils
