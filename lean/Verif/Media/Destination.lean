import Verif.Mix.Proofs
import Mathlib.Data.List.Infix

/-!
# C71: the stream of a `MediaStreamAudioDestinationNode`

Models `/repo/src/node/media_stream_destination.rs` l.84-159: a channel of capacity one between the render thread and the
reader of the stream. The render thread removes an unread buffer (`try_recv`) and then sends the new one; the reader can run
in between. The reader is the provider of a track, so there is one at a time (`Buffer/Track.lean`). A buffer is the list of
the channels of the input (l.131-132).
-/

namespace Verif.Media.Destination

variable {β : Type}

/-- what the iterator of the stream yields, l.150-159 -/
inductive Item (β : Type)
  | ok (b : β)
  | err
  deriving DecidableEq, Repr

/-- the state of channel, render thread and reader -/
structure St (β : Type) where
  /-- content of the channel, capacity 1, l.87 -/
  chan : List β
  /-- the renderer is between `try_recv` and `send` with this buffer, l.134-140 -/
  sending : Option β
  /-- the renderer, which owns the only sender, exists -/
  alive : Bool
  /-- what the reader got -/
  got : List (Item β)

/-- l.87-99 -/
def St.new : St β := ⟨[], none, true, []⟩

inductive Act (β : Type)
  /-- `process` for an input, l.130-137 -/
  | render (b : β)
  /-- l.140 -/
  | send
  /-- `next` of the iterator, l.153-158 -/
  | read
  /-- the renderer is dropped -/
  | drop
  deriving DecidableEq, Repr

/-- One step; `none`: not possible, or the thread waits. -/
def St.step (s : St β) : Act β → Option (St β)
  | .render b => if s.alive ∧ s.sending = none then some { s with chan := s.chan.tail, sending := some b } else none
  | .send =>
    match s.sending with
    | none => none
    | some b => if s.chan.length < 1 then some { s with chan := s.chan ++ [b], sending := none } else none
  | .read =>
    match s.chan with
    | b :: rest => some { s with chan := rest, got := s.got ++ [.ok b] }
    | [] => if s.alive then none else some { s with got := s.got ++ [.err] }
  | .drop => if s.alive ∧ s.sending = none then some { s with alive := false } else none

def St.run (s : St β) : List (Act β) → Option (St β)
  | [] => some s
  | a :: as => (s.step a).bind fun s' => s'.run as

/-! ## Specification -/

/-- the buffers rendered -/
def rendered : List (Act β) → List β
  | [] => []
  | .render b :: as => b :: rendered as
  | _ :: as => rendered as

/-- the buffers read -/
def oks : List (Item β) → List β
  | [] => []
  | .ok b :: as => b :: oks as
  | _ :: as => oks as

theorem rendered_append (a b : List (Act β)) : rendered (a ++ b) = rendered a ++ rendered b := by
  induction a with
  | nil => rfl
  | cons x xs ih => cases x <;> simp [rendered, ih]

theorem oks_append (a b : List (Item β)) : oks (a ++ b) = oks a ++ oks b := by
  induction a with
  | nil => rfl
  | cons x xs ih => cases x <;> simp [oks, ih]

theorem run_append (as bs : List (Act β)) (s : St β) : s.run (as ++ bs) = (s.run as).bind fun t => t.run bs := by
  induction as generalizing s with
  | nil => rfl
  | cons a as ih =>
    show (s.step a).bind _ = _
    simp only [St.run]
    cases s.step a with
    | none => rfl
    | some t => exact ih t

/-- The invariant: the channel has room while a buffer is being sent, and what is read, in the channel and about to be sent is
a part of what was rendered that ends like it. -/
def Inv (acts : List (Act β)) (s : St β) : Prop :=
  (s.chan ≠ [] → s.sending = none) ∧ s.chan.length ≤ 1 ∧ (s.alive = false → s.sending = none) ∧
  (s.alive = true → ∀ x ∈ s.got, x ≠ .err) ∧
  ∃ p r : List β, rendered acts = p ++ r ∧ (oks s.got).Sublist p ∧ r = s.chan ++ s.sending.toList

theorem inv_step (acts : List (Act β)) (s s' : St β) (a : Act β) (hi : Inv acts s) (hs : s.step a = some s') :
    Inv (acts ++ [a]) s' := by
  obtain ⟨h1, h2, h3, h4, p, r, h5, h6, h7⟩ := hi
  cases a with
  | render b =>
    simp only [St.step] at hs
    split at hs
    · rename_i hc
      injection hs with hs
      subst hs
      have ht : s.chan.tail = [] := by
        apply List.length_eq_zero_iff.mp; rw [List.length_tail]; omega
      refine ⟨fun h => absurd ht h, by simp [ht], fun h => absurd hc.1 (by simp [show s.alive = false from h]), h4, p ++ r, [b], ?_,
        h6.trans (List.sublist_append_left p r), by simp [ht]⟩
      rw [rendered_append, h5]; rfl
    · cases hs
  | send =>
    simp only [St.step] at hs
    split at hs
    · cases hs
    · rename_i b hb
      split at hs
      · rename_i hl
        injection hs with hs
        subst hs
        have hc : s.chan = [] := List.length_eq_zero_iff.mp (by omega)
        refine ⟨fun _ => rfl, by simp [hc], fun _ => rfl, h4, p, r, ?_, h6, ?_⟩
        · rw [rendered_append, h5]; simp [rendered]
        · simp [h7, hc, hb]
      · cases hs
  | read =>
    simp only [St.step] at hs
    split at hs
    · rename_i b rest hb
      injection hs with hs
      subst hs
      rw [hb] at h2 h7
      have hr : rest = [] := List.length_eq_zero_iff.mp (by simpa using h2)
      have hsn := h1 (by simp [hb])
      refine ⟨fun h => absurd hr h, by simp [hr], h3, ?_, p ++ [b], [], ?_, ?_, by simp [hr, hsn]⟩
      · intro ha x hx
        rcases List.mem_append.mp hx with hx | hx
        · exact h4 ha x hx
        · rw [List.mem_singleton.mp hx]; intro hc; cases hc
      · rw [rendered_append, h5, h7, hr, hsn]; simp [rendered]
      · show (oks (s.got ++ [.ok b])).Sublist _
        rw [oks_append]
        exact h6.append_right _
    · rename_i hb
      split at hs
      · cases hs
      · rename_i ha
        injection hs with hs
        subst hs
        refine ⟨h1, h2, h3, fun h => absurd h ha, p, r, ?_, ?_, h7⟩
        · rw [rendered_append, h5]; simp [rendered]
        · show (oks (s.got ++ [.err])).Sublist _
          rw [oks_append]
          simpa [oks] using h6
  | drop =>
    simp only [St.step] at hs
    split at hs
    · rename_i hc
      injection hs with hs
      subst hs
      refine ⟨h1, h2, fun _ => hc.2, (fun h => by cases h), p, r, ?_, h6, h7⟩
      rw [rendered_append, h5]; simp [rendered]
    · cases hs

theorem inv_run (acts : List (Act β)) : ∀ (pre : List (Act β)) (s s' : St β), Inv pre s → s.run acts = some s' →
    Inv (pre ++ acts) s' := by
  induction acts with
  | nil =>
    intro pre s s' hi hr
    injection hr with hr
    subst hr
    rw [List.append_nil]; exact hi
  | cons a as ih =>
    intro pre s s' hi hr
    simp only [St.run] at hr
    cases hs : s.step a with
    | none => rw [hs] at hr; cases hr
    | some t =>
      rw [hs] at hr
      have := ih (pre ++ [a]) t s' (inv_step pre s t a hi hs) hr
      rwa [List.append_assoc] at this

theorem inv_new : Inv ([] : List (Act β)) St.new :=
  ⟨fun h => absurd rfl h, by simp [St.new], (fun h => by cases h), (fun _ x hx => by cases hx), [], [], rfl,
    List.Sublist.refl _, rfl⟩

/-- C71: the render thread never waits for the reader. -/
theorem C71_never_blocks (acts : List (Act β)) (s : St β) (hr : St.new.run acts = some s) (hs : s.sending ≠ none) :
    (s.step .send).isSome = true := by
  obtain ⟨h1, _⟩ := inv_run acts [] _ s inv_new hr
  have hc : s.chan = [] := by
    by_contra h
    exact hs (h1 h)
  simp only [St.step]
  cases hb : s.sending with
  | none => exact absurd hb hs
  | some b => simp [hc]

/-- C71: the reader gets buffers that were rendered, each at most once, in order, and no error while the node lives. -/
theorem C71_order (acts : List (Act β)) (s : St β) (hr : St.new.run acts = some s) :
    (oks s.got).Sublist (rendered acts) ∧ (s.alive = true → ∀ x ∈ s.got, x ≠ .err) := by
  obtain ⟨_, _, _, h4, p, r, h5, h6, _⟩ := inv_run acts [] _ s inv_new hr
  rw [List.nil_append] at h5
  exact ⟨by rw [h5]; exact h6.trans (List.sublist_append_left p r), h4⟩

/-- C71: a read never returns old sound: it is the last buffer that was rendered. -/
theorem C71_fresh (acts : List (Act β)) (s s' : St β) (b : β) (hr : St.new.run acts = some s)
    (hs : s.step .read = some s') (hg : s'.got = s.got ++ [.ok b]) : (rendered acts).getLast? = some b := by
  obtain ⟨h1, h2, _, _, p, r, h5, _, h7⟩ := inv_run acts [] _ s inv_new hr
  rw [List.nil_append] at h5
  simp only [St.step] at hs
  split at hs
  · rename_i c rest hc
    injection hs with hs
    subst hs
    have hcb : c = b := by
      have := List.append_cancel_left hg
      simpa using this
    subst hcb
    rw [hc] at h2
    have hrest : rest = [] := List.length_eq_zero_iff.mp (by simpa using h2)
    have hsn := h1 (by simp [hc])
    rw [h5, h7, hc, hrest, hsn]
    simp
  · split at hs
    · cases hs
    · injection hs with hs
      subst hs
      have := List.append_cancel_left hg
      simp at this

/-- C71: if the reader has read every buffer before the next one is rendered, nothing is lost. -/
theorem C71_lossless (acts : List (Act β)) (s : St β) (hr : St.new.run acts = some s)
    (hk : ∀ pre b post, acts = pre ++ .render b :: post → ∀ t, St.new.run pre = some t →
      (oks t.got).length = (rendered pre).length) :
    oks s.got ++ s.chan ++ s.sending.toList = rendered acts := by
  have key : ∀ n, n ≤ acts.length → ∀ t, St.new.run (acts.take n) = some t →
      oks t.got ++ t.chan ++ t.sending.toList = rendered (acts.take n) := by
    intro n
    induction n with
    | zero =>
      intro _ t ht
      rw [List.take_zero] at ht
      injection ht with ht
      subst ht
      rfl
    | succ n ih =>
      intro hn t ht
      have hlt : n < acts.length := by omega
      rw [List.take_succ_eq_append_getElem hlt, run_append] at ht
      cases hu : St.new.run (acts.take n) with
      | none => rw [hu] at ht; cases ht
      | some u =>
        rw [hu] at ht
        have hstep : u.step acts[n] = some t := by
          simp only [Option.bind_some, St.run] at ht
          cases hx : u.step acts[n] with
          | none => rw [hx] at ht; cases ht
          | some w => rw [hx] at ht; exact ht
        have hu' := ih (by omega) u hu
        rw [List.take_succ_eq_append_getElem hlt, rendered_append, ← hu']
        have hlen : ∀ b, acts[n] = .render b → (oks u.got).length = (rendered (acts.take n)).length := by
          intro b hb
          refine hk (acts.take n) b (acts.drop (n + 1)) ?_ u hu
          rw [← hb, ← List.drop_eq_getElem_cons hlt, List.take_append_drop]
        cases ha : acts[n] with
        | render b =>
          rw [ha] at hstep
          have h := hlen b ha
          rw [← hu', List.length_append, List.length_append] at h
          have hc : u.chan = [] := List.length_eq_zero_iff.mp (by omega)
          have hsd : u.sending.toList = [] := List.length_eq_zero_iff.mp (by omega)
          simp only [St.step] at hstep
          split at hstep
          · injection hstep with hstep
            subst hstep
            simp [hc, hsd, rendered]
          · cases hstep
        | send =>
          rw [ha] at hstep
          simp only [St.step] at hstep
          split at hstep
          · cases hstep
          · rename_i b hb
            split at hstep
            · injection hstep with hstep
              subst hstep
              simp [hb, rendered]
            · cases hstep
        | read =>
          rw [ha] at hstep
          simp only [St.step] at hstep
          split at hstep
          · rename_i b rest hb
            injection hstep with hstep
            subst hstep
            simp [hb, oks_append, oks, rendered]
          · split at hstep
            · cases hstep
            · injection hstep with hstep
              subst hstep
              simp [oks_append, oks, rendered]
        | drop =>
          rw [ha] at hstep
          simp only [St.step] at hstep
          split at hstep
          · injection hstep with hstep
            subst hstep
            simp [rendered]
          · cases hstep
  have := key acts.length (le_refl _) s (by rw [List.take_length]; exact hr)
  rwa [List.take_length] at this

/-- C71, negated: the stream never ends. When the node is gone, the reader gets one error after the other. -/
theorem C71_end_negated (acts : List (Act β)) (s : St β) (_hr : St.new.run acts = some s) (ha : s.alive = false)
    (hc : s.chan = []) (n : Nat) :
    ∃ t, s.run (List.replicate n .read) = some t ∧ t.got = s.got ++ List.replicate n .err := by
  clear _hr
  induction n generalizing s with
  | zero => exact ⟨s, rfl, by simp⟩
  | succ n ih =>
    obtain ⟨t, h1, h2⟩ := ih { s with got := s.got ++ [.err] } ha hc
    refine ⟨t, ?_, ?_⟩
    · rw [List.replicate_succ]
      have : s.step .read = some { s with got := s.got ++ [.err] } := by simp [St.step, hc, ha]
      simp only [St.run, this, Option.bind_some]
      exact h1
    · rw [h2, List.append_assoc, List.replicate_succ]; rfl

/-! ## The number of channels -/

section Channels

variable {K : Type} [Field K]

open Verif.Mix

theorem addChans_length (l1 : List (Chan K)) : ∀ (next : Nat) (l2 : List (Chan K)), l1.length = l2.length →
    (addChans next l1 l2).1.length = l1.length := by
  induction l1 with
  | nil => intro next l2 h; cases l2 with
    | nil => rfl
    | cons b bs => cases h
  | cons a as ih =>
    intro next l2 h
    cases l2 with
    | nil => cases h
    | cons b bs =>
      simp only [addChans, List.length_cons]
      rw [ih _ bs (by simpa using h)]

theorem add_length (r : K) (mode : Mode) (count : Nat) (interp : Interp) (next : Nat) (self other : List (Chan K))
    (h1 : self ≠ []) (h2 : other ≠ []) :
    (add r mode count interp next self other).1.length = newCount mode count self.length other.length := by
  unfold add
  split
  · cases self with
    | nil => exact absurd rfl h1
    | cons a as =>
      cases other with
      | nil => exact absurd rfl h2
      | cons b bs => exact mix_length _ _ _ _ _
  · simp only
    rw [addChans_length, mix_length]
    rw [mix_length, mix_length]

/-- C71: with channel count mode `explicit` and at least one connection, the buffers have as many channels as the node. -/
theorem C71_channels_partial (r : K) (count : Nat) (interp : Interp) (next : Nat) (bufs : List (List (Chan K)))
    (hne : bufs ≠ []) (hch : ∀ o ∈ bufs, o ≠ []) (hc : 0 < count) :
    (sumInto r .explicit count interp next bufs).1.length = count := by
  have key : ∀ (l : List (List (Chan K))) (s : List (Chan K) × Nat), s.1 ≠ [] → (l = [] → s.1.length = count) →
      (∀ o ∈ l, o ≠ []) →
      (l.foldl (fun (s : List (Chan K) × Nat) o => add r .explicit count interp s.2 s.1 o) s).1.length = count := by
    intro l
    induction l with
    | nil => intro s _ h _; exact h rfl
    | cons o l ih =>
      intro s hs _ ho
      have hl := add_length r .explicit count interp s.2 s.1 o hs (ho o List.mem_cons_self)
      rw [List.foldl_cons]
      refine ih _ ?_ (fun _ => hl) fun x hx => ho x (List.mem_cons_of_mem _ hx)
      intro hc'
      rw [hc'] at hl
      exact absurd hl.symm (Nat.pos_iff_ne_zero.mp hc)
  exact key bufs _ (by simp) (fun h => absurd h hne) hch

/-- C71, negated: without a connection the buffers are mono, whatever the configuration of the node. -/
theorem C71_channels_negated (r : K) (mode : Mode) (count : Nat) (interp : Interp) (next : Nat) :
    (sumInto r mode count interp next []).1.length = 1 := rfl

end Channels

/-! ## Examples -/

/-- A reader that is late loses a buffer, one that comes between `try_recv` and `send` waits. -/
example : ∃ s : St Nat, St.new.run [.render 1, .send, .render 2, .send, .read, .render 3, .send, .read, .drop, .read] = some s ∧
    s.got = [.ok 2, .ok 3, .err] := ⟨_, rfl, rfl⟩

example : ∃ s : St Nat, St.new.run [.render 1] = some s ∧ s.step .read = none := ⟨_, rfl, rfl⟩

/-- The hypothesis of `C71_lossless` can be met. -/
example : ∃ s : St Nat, St.new.run [.render 1, .send, .read, .render 2, .send] = some s ∧ oks s.got = [1] ∧ s.chan = [2] :=
  ⟨_, rfl, rfl, rfl⟩

end Verif.Media.Destination
