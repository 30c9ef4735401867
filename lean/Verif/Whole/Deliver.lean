import Verif.Whole.Program

/-!
# From the quanta of a graph to the buffer and to the device

The application makes its calls before rendering; then no more messages arrive. What holds for every frame of every quantum of the
graph holds for every frame of the buffer of an offline context and for every frame that a live context writes to its device.
-/

namespace Verif.Whole

open Verif Verif.Render Verif.Engine

section
variable {K : Type} [Field K] [LinearOrder K] [IsStrictOrderedRing K] [FloorRing K]
variable {Q X : Type}

theorem deliver_offline (e : Studio K Q X) {ops : List (Op (SProc K Q) (SMsg K X))} {s2 : Sys (SProc K Q) (MSig K e.c.N) (SMsg K X)}
    (hrun : RGraph.foldOpt (Sys.step e.timed.base) ops (Sys.init e.timed.base .destination ⟨2, 2, 0⟩) = some s2)
    (hs2 : (s2.g.slot 0).isSome = true) (R : Nat → K → Prop)
    (hq : ∀ q, ∃ gk g' y, stage e.timed 0 s2.g (List.replicate q []) = some gk ∧ gk.render (e.timed.at (0 + 128 * q)) = some (g', y) ∧
      ∀ c j, c < 2 → j < 128 → R (128 * q + j) (Node.sample y.q c j)) (length : Nat) (dead : Nat → Bool) :
    ∃ o l r, Thread.offRender (worldSem e.timed stereo) dead 2 length length [] (start e.timed .destination ⟨2, 2, 0⟩)
        [program e.timed.base ops] = some ([], o) ∧
      o.buffer = [l, r] ∧ l.length = length ∧ r.length = length ∧ ∀ f, f < length → ∀ b ∈ [l, r], R f (b.getD f 0) := by
  obtain ⟨w, ys, p1, p2, p3⟩ := play_quanta e.timed (stereo (K := K)) ((length + 127) / 128) 0 s2
    (fun q y => ∀ c j, c < 2 → j < 128 → R (128 * q + j) (Node.sample y.q c j)) (fun q _ => hq q)
  have hgood : Thread.Good (worldSem e.timed (stereo (K := K)))
      ({ (start e.timed .destination ⟨2, 2, 0⟩ : Thread.St (World (SProc K Q) (MSig K e.c.N) (SMsg K X)) K) with
        graph := some (some s2) }) (some s2) := ⟨rfl, hs2, rfl, rfl⟩
  obtain ⟨o, o1, o2⟩ := Thread.offLoop_play (worldSem e.timed (stereo (K := K))) dead length (List.replicate ((length + 127) / 128) []) 0
    { t := { (start e.timed .destination ⟨2, 2, 0⟩ : Thread.St (World (SProc K Q) (MSig K e.c.N) (SMsg K X)) K) with
        graph := some (some s2) }, buffer := List.replicate 2 [], trace := [] } (some s2) hgood (by simp)
    (fun b hb m hm => by rw [List.eq_of_mem_replicate hb] at hm; cases hm) (world_active e.timed stereo) w _ p1
  rw [List.length_replicate, Thread.offLoop_empty _ _ _ _ _ _ _ (by simp)] at o1
  have hoff : Thread.offRender (worldSem e.timed (stereo (K := K))) dead 2 length length [] (start e.timed .destination ⟨2, 2, 0⟩)
      [program e.timed.base ops] = some ([], o) := by
    unfold Thread.offRender Thread.St.poll
    rw [if_pos (show (start e.timed .destination ⟨2, 2, 0⟩ : Thread.St (World (SProc K Q) (MSig K e.c.N) (SMsg K X)) K).receiver = true from rfl)]
    simp only [List.headD_cons, handle_program e.timed.base _ (start e.timed .destination ⟨2, 2, 0⟩) _ rfl hrun, Option.map_some, List.tail_cons]
    exact o1
  obtain ⟨d1, d2, d3⟩ := Thread.C17_exact _ dead 2 length [] _ _ hoff
  rw [show Thread.rendered o.trace = ys.map stereo by rw [o2]; rfl] at d3
  match hbuf : o.buffer, d1 with
  | [l, r], _ =>
    obtain ⟨l1, l2⟩ := d3 0 l (by rw [hbuf]; rfl)
    obtain ⟨r1, r2⟩ := d3 1 r (by rw [hbuf]; rfl)
    refine ⟨o, l, r, hoff, hbuf, l1, r1, fun f hf b hb => ?_⟩
    have hq : f / 128 < ys.length := by rw [p2]; omega
    have hfq : 128 * (f / 128) + f % 128 = f := Nat.div_add_mod f 128
    have hj : f % 128 < 128 := Nat.mod_lt _ (by decide)
    have hy := p3 (f / 128) ys[f / 128] (by simp [hq])
    have get : ∀ c, c < 2 → ((Thread.channelStream c (ys.map stereo)).take length).getD f 0 = Node.sample (ys[f / 128]).q c (f % 128) := by
      intro c hc
      rw [List.getD_eq_getElem?_getD, List.getElem?_take, if_pos hf]
      conv_lhs => rw [← hfq]
      rw [channelStream_at c hj, List.getElem?_map, List.getElem?_eq_getElem hq]
      match c, hc with
      | 0, _ => rfl
      | 1, _ => rfl
    rcases List.mem_cons.1 hb with rfl | hb
    · have := hy 0 (f % 128) (by omega) hj
      rw [hfq] at this
      rw [l2, get 0 (by omega)]
      exact this
    · rw [List.mem_singleton.1 hb]
      have := hy 1 (f % 128) (by omega) hj
      rw [hfq] at this
      rw [r2, get 1 (by omega)]
      exact this

theorem deliver_live (e : Studio K Q X) {ops : List (Op (SProc K Q) (SMsg K X))} {s2 : Sys (SProc K Q) (MSig K e.c.N) (SMsg K X)}
    (hrun : RGraph.foldOpt (Sys.step e.timed.base) ops (Sys.init e.timed.base .destination ⟨2, 2, 0⟩) = some s2)
    (hs2 : (s2.g.slot 0).isSome = true) (R : Nat → K → Prop)
    (hq : ∀ q, ∃ gk g' y, stage e.timed 0 s2.g (List.replicate q []) = some gk ∧ gk.render (e.timed.at (0 + 128 * q)) = some (g', y) ∧
      ∀ c j, c < 2 → j < 128 → R (128 * q + j) (Node.sample y.q c j)) (buf : List K) (bufs : List (List K))
    (hbufs : ∀ b ∈ buf :: bufs, b.length % 2 = 0) :
    ∃ s' out, Thread.run (worldSem e.timed stereo) 2 (buf :: bufs) (start e.timed .destination ⟨2, 2, 0⟩)
        [program e.timed.base ops] = some (s', out, []) ∧
      out.length = ((buf :: bufs).map List.length).sum ∧ ∀ f c, c < 2 → f * 2 + c < out.length → R f (out.getD (f * 2 + c) 0) := by
  obtain ⟨s', out, o, r1, r2, r3, r4, r5⟩ := Thread.C100_untouched (worldSem e.timed (stereo (K := K))) (ch := 2) (by decide)
    (world_active e.timed stereo) (buf :: bufs) hbufs
    { (start e.timed .destination ⟨2, 2, 0⟩ : Thread.St (World (SProc K Q) (MSig K e.c.N) (SMsg K X)) K) with
        graph := some (some s2) } (some s2) rfl hs2 rfl rfl rfl (fun _ => false)
  have hp := handle_program (K := K) e.timed.base _ (start e.timed .destination ⟨2, 2, 0⟩) _ rfl hrun
  have poll : (start e.timed .destination ⟨2, 2, 0⟩ : Thread.St (World (SProc K Q) (MSig K e.c.N) (SMsg K X)) K).poll
        [program e.timed.base ops] =
      ({ (start e.timed .destination ⟨2, 2, 0⟩ : Thread.St (World (SProc K Q) (MSig K e.c.N) (SMsg K X)) K) with
        graph := some (some s2) }).poll [] := by
    unfold Thread.St.poll
    rw [if_pos (show (start e.timed .destination ⟨2, 2, 0⟩ : Thread.St (World (SProc K Q) (MSig K e.c.N) (SMsg K X)) K).receiver = true from rfl),
      List.headD_cons, hp]
    rfl
  obtain ⟨o', l, r, p1, p2, p3, p4, p5⟩ := deliver_offline e hrun hs2 R hq (out.length / 2) (fun _ => false)
  have ho : o' = o := by
    have : Thread.offRender (worldSem e.timed (stereo (K := K))) (fun _ => false) 2 (out.length / 2) (out.length / 2) []
        (start e.timed .destination ⟨2, 2, 0⟩)
        [program e.timed.base ops] = some ([], o) := by
      rw [← r3]
      simp only [Thread.offRender, poll]
    rw [p1] at this
    simpa using this
  subst ho
  refine ⟨s', out, ?_, r2, fun f c hc hf => ?_⟩
  · rw [← r1]
    have : ∀ (t : Thread.St (World (SProc K Q) (MSig K e.c.N) (SMsg K X)) K) bs, t.offset = none →
        Thread.renderInner (worldSem e.timed (stereo (K := K))) 2 buf t bs = Thread.renderRest (worldSem e.timed stereo) 2 buf t bs := by
      intro t bs ht
      simp only [Thread.renderInner, ht]
    simp only [Thread.run]
    rw [this _ _ rfl, this _ _ rfl]
    simp only [Thread.renderRest, poll]
  · have even : ∀ l : List (List K), (∀ b ∈ l, b.length % 2 = 0) → (l.map List.length).sum % 2 = 0 := by
      intro l
      induction l with
      | nil => intro _; rfl
      | cons b l ih =>
        intro h
        have h1 := h b (by simp)
        have h2 := ih fun x hx => h x (by simp [hx])
        simp only [List.map_cons, List.sum_cons]
        omega
    have hev := even _ hbufs
    rw [← r2] at hev
    have hf' : f < out.length / 2 := by omega
    have key : ∀ b ∈ [l, r], ∀ c, b[f]? = out[f * 2 + c]? → R f (out.getD (f * 2 + c) 0) := by
      intro b hb c h
      have := p5 f hf' b hb
      rw [List.getD_eq_getElem?_getD, h, ← List.getD_eq_getElem?_getD] at this
      exact this
    match c, hc with
    | 0, _ => exact key l (by simp) 0 ((r5 0 l (by rw [p2]; rfl)).2 f hf')
    | 1, _ => exact key r (by simp) 1 ((r5 1 r (by rw [p2]; rfl)).2 f hf')

end

end Verif.Whole
