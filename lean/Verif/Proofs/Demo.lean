import Verif.Proofs.Budget
/-!
# Concrete stores and calls, used to show that the hypotheses of the theorems can be met
-/
namespace Candy
open Spec

/-- A default-like configuration with the worst possible hash function: all keys collide. -/
def demoCfg : Cfg :=
  { hash := fun _ => ⟨0x1234567812345678#64, 0#64⟩, maxShardSize := 67108864, minCompaction := 8388608, expectedKeys := 0, maxListOps := 16 }

/-- A reachable state with few contents. -/
structure Tiny (cfg : Cfg) (es : List Event) (t : Tree) (m : Map) (c b : Nat) : Prop where
  reach : Reachable cfg es t
  get : t.get cfg = m
  few : Few m c b
  pot : t.pot ≤ b
  exact : exactAfter true es = true

theorem tiny_new {cfg : Cfg} (h : cfg.expectedKeys ≤ 65536 * 29491) : ∃ t, Tiny cfg [] t Map.empty 0 0 := by
  obtain ⟨t, h1, _, _, _, h2, _, _, h3⟩ := Tree.create_spec h true
  exact ⟨t, ⟨t, h1, .nil _⟩, funext h3, Few.empty, by omega, rfl⟩

theorem exactAfter_call : ∀ (es : List Event) (c : Call) (r : Res Resp) (b : Bool), exactAfter b (es ++ [.call c r]) = exactAfter b es := by
  intro es c r
  induction es with
  | nil => intro b; rfl
  | cons e es ih => intro b; cases e <;> exact ih _

/-- A cheap call can be made. -/
theorem Tiny.call {cfg es t m c b} (h : Tiny cfg es t m c b) (cl : Call) (c1 b1 : Nat) (hc : Cheap cfg (cl.prog cfg) c1 b1 m)
    (hc1 : c + c1 < 512) (hb1 : b + b1 ≤ cfg.maxShardSize.toNat) :
    ∃ r t' m', Calls cfg t cl r t' ∧ (r ≠ .exhausted → Tiny cfg (es ++ [.call cl r]) t' m' (c + c1) (b + b1)) ∧
      ∃ p, AExec cfg m (cl.prog cfg) m' p ∧ p.result = some r := by
  obtain ⟨w, _, hs, _⟩ := h.reach.world
  have hmax := cfg.maxShardSize.toNat_lt
  obtain ⟨t', p, r, e1, e2, e3, e4, e5⟩ := exists_exec (cl.prog cfg) t c b c1 b1 hs.ok (h.get ▸ h.few) (h.get ▸ hc) hc1 hb1
    (by have := h.pot; omega)
  have hcalls : Calls cfg t cl r t' := ⟨p, e1, e2⟩
  refine ⟨r, t', t'.get cfg, hcalls, fun hne => ⟨h.reach.call hcalls hne, rfl, e4, by have := h.pot; omega,
    (exactAfter_call es cl r true).trans h.exact⟩, p, ?_, e2⟩
  have := (e1.sim hs.ok).2
  rw [h.get] at this
  exact this

/-- A key-value call that stores little can be made; its result is that of the ideal map. -/
theorem Tiny.kv {cfg es t m c b} (h : Tiny cfg es t m c b) (k : Bytes) (op : KvOp) (b1 : Nat)
    (hop : ∀ v, KvOp.value? op = some v → k.length + 1 + v.length ≤ b1) (hc1 : c + 1 < 512) (hb1 : b + b1 ≤ cfg.maxShardSize.toNat)
    (he : kvError cfg k op = none) :
    ∃ t', Calls cfg t (.kv k op) (.ok (kvAnswer (m (userKey k)) op).1) t' ∧
      Tiny cfg (es ++ [.call (.kv k op) (.ok (kvAnswer (m (userKey k)) op).1)]) t' (m.upd (userKey k) (kvAnswer (m (userKey k)) op).2) (c + 1) (b + b1) := by
  have hcheap : Cheap cfg ((Call.kv k op).prog cfg) 1 b1 m := by
    have hl : ∀ v : Bytes, (userKey k).length + v.length = k.length + 1 + v.length := fun v => by rw [userKey_eq]; simp
    have ens : ∀ {α : Type} (v : Bytes) (p : Prog α) (g : α → Prog Resp), KvOp.value? op = some v → Cheap cfg (p.bind g) 1 b1 m →
        Cheap cfg (((ensureSizes k v).bind (fun _ => p)).bind g) 1 b1 m := by
      intro α v p g hv hp
      unfold ensureSizes
      split
      · trivial
      · split
        · trivial
        · exact hp
    have ins : ∀ (v : Bytes) (mode : Mode) (f : InsStatus → Prog Resp), KvOp.value? op = some v → (∀ s c' b' m', Cheap cfg (f s) c' b' m') →
        Cheap cfg (.ins (userKey k) v mode f) 1 b1 m := by
      intro v mode f hv hf
      unfold Cheap
      cases sizeErr cfg (userKey k) v with
      | some e => trivial
      | none =>
        have := hop v hv
        exact ⟨0, b1 - (k.length + 1 + v.length), rfl, by rw [hl]; omega, hf _ _ _ _⟩
    cases op with
    | get => trivial
    | contains => trivial
    | remove => trivial
    | set v =>
      refine ens v _ _ rfl ?_
      refine ins v .set _ rfl ?_
      intro s _ _ _
      cases s <;> trivial
    | replace v e =>
      refine ens v _ _ rfl ?_
      refine ins v (.replace e) _ rfl ?_
      intro s _ _ _
      cases s <;> trivial
    | getOrCreate v =>
      refine ens v _ _ rfl ?_
      refine ins v .getOrCreate _ rfl ?_
      intro s _ _ _
      cases s <;> trivial
  obtain ⟨r, t', m', h1, h2, p, h3, h4⟩ := h.call (.kv k op) 1 b1 hcheap hc1 hb1
  have := (wp_kvOp cfg k op m).sound h3 h4
  rw [he] at this
  obtain ⟨rfl, rfl⟩ := this
  exact ⟨t', h1, h2 (by simp)⟩

/-- A store in which `a` has been set to `b`. -/
theorem demo_ab : ∃ es t, Reachable demoCfg es t ∧ t.userGet demoCfg [97] = some [98] ∧ ∃ m, Tiny demoCfg es t m 1 3 ∧ m = Map.empty.upd (userKey [97]) (some [98]) := by
  obtain ⟨t0, h0⟩ := tiny_new (cfg := demoCfg) (by decide)
  obtain ⟨t1, _, h1⟩ := h0.kv [97] (.set [98]) 3 (by intro v hv; simp [KvOp.value?] at hv; subst hv; decide) (by decide) (by decide) (by decide)
  refine ⟨_, t1, h1.reach, ?_, _, h1, rfl⟩
  unfold Tree.userGet
  rw [h1.get, Map.upd_same]; rfl

end Candy
