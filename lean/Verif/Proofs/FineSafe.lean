import Verif.Model.Fine
import Verif.Proofs.AConc
/-!
# Rely and guarantee for the accesses of a shard

An *actor* (a thread in a raw operation, or a background compaction) holds the lock of a row. What the others may do meanwhile is `Rely`, what the actor
itself may do is `Guar`. `Safe` says of a program that it does only that, whatever the others do between its accesses, and ends properly.
-/
namespace Candy
open Spec

/-! ## Files -/

/-- A region of the data area: offset and length. -/
abbrev Reg := Nat × Nat
def inReg (pen : Option Reg) (b : Nat) : Prop := ∃ R, pen = some R ∧ R.1 ≤ b ∧ b < R.1 + R.2
def inDesc (d : BitVec 64) (b : Nat) : Prop := descOff d ≤ b ∧ b < descEnd d

theorem readAt_congr' {d d' : Nat → UInt8} {off len : Nat} (h : ∀ i, off ≤ i → i < off + len → d i = d' i) : readAt d off len = readAt d' off len := by
  unfold readAt
  apply List.map_congr_left
  intro i hi
  rw [List.mem_range] at hi
  exact h _ (by omega) (by omega)

theorem readKV_congr' {f g : MFile} {d : BitVec 64} (h : ∀ b, inDesc d b → f.data b = g.data b) : f.readKV d = g.readKV d := by
  have : readAt f.data (descOff d) (descKlen d + descVlen d) = readAt g.data (descOff d) (descKlen d + descVlen d) :=
    readAt_congr' (fun i h1 h2 => h i ⟨h1, h2⟩)
  unfold MFile.readKV
  simp only [this]

theorem live_congr' {f g : MFile} {r c : Nat} (hs : g.slot r c = f.slot r c)
    (hd : (f.slot r c).sig ≠ INVALID_SIG → ∀ b, inDesc (f.slot r c).desc b → g.data b = f.data b) : g.live r c = f.live r c := by
  unfold MFile.live
  rw [hs]
  split
  · rename_i h; rw [readKV_congr' (hd h)]
  · rfl

/-- Changing one slot. -/
theorem FileOK.set1 {cfg : Cfg} {lo hi : Nat} {f g : MFile} (h : FileOK cfg lo hi f) (r c : Nat)
    (ho : f.writeOff ≤ g.writeOff)
    (hoth : ∀ r' c', r' < NUM_ROWS → c' < ROW_WIDTH → ¬ (r' = r ∧ c' = c) → g.slot r' c' = f.slot r' c' ∧ g.live r' c' = f.live r' c')
    (hthis : r < NUM_ROWS → c < ROW_WIDTH → g.live r c = none ∨ ∃ kv : KV, g.live r c = some kv ∧ (g.slot r c).sig = (cfg.ph kv.1).sig ∧
      (cfg.ph kv.1).rowSel = r ∧ (lo ≤ (cfg.ph kv.1).shardSel ∧ (cfg.ph kv.1).shardSel < hi) ∧ descEnd (g.slot r c).desc ≤ g.writeOff ∧
      ∀ c', c' < ROW_WIDTH → c' ≠ c → ∀ kv', f.live r c' = some kv' → kv'.1 ≠ kv.1) : FileOK cfg lo hi g := by
  have key : ∀ r' c', r' < NUM_ROWS → c' < ROW_WIDTH → ∀ kv, g.live r' c' = some kv → (¬ (r' = r ∧ c' = c) ∧ f.live r' c' = some kv ∧ g.slot r' c' = f.slot r' c') ∨
      (r' = r ∧ c' = c ∧ (g.slot r c).sig = (cfg.ph kv.1).sig ∧ (cfg.ph kv.1).rowSel = r ∧ (lo ≤ (cfg.ph kv.1).shardSel ∧ (cfg.ph kv.1).shardSel < hi) ∧
        ∀ c', c' < ROW_WIDTH → c' ≠ c → ∀ kv', f.live r c' = some kv' → kv'.1 ≠ kv.1) := by
    intro r' c' hr hc kv hl
    by_cases e : r' = r ∧ c' = c
    · obtain ⟨rfl, rfl⟩ := e
      rcases hthis hr hc with h1 | ⟨kv0, h1, h2, h3, h4, _, h6⟩
      · rw [h1] at hl; cases hl
      · rw [h1] at hl; cases hl; exact .inr ⟨rfl, rfl, h2, h3, h4, h6⟩
    · obtain ⟨h1, h2⟩ := hoth r' c' hr hc e
      exact .inl ⟨e, by rw [← h2]; exact hl, h1⟩
  refine ⟨?_, ?_, ?_, ?_, ?_⟩
  · intro r' c' hr hc hs
    by_cases e : r' = r ∧ c' = c
    · obtain ⟨rfl, rfl⟩ := e
      rcases hthis hr hc with h1 | ⟨kv, _, _, _, _, h5, _⟩
      · exact absurd (live_eq_none.1 h1) hs
      · exact h5
    · obtain ⟨h1, _⟩ := hoth r' c' hr hc e
      rw [h1] at hs ⊢
      exact Nat.le_trans (h.ext r' c' hr hc hs) ho
  · intro r' c' kv hr hc hl
    rcases key r' c' hr hc kv hl with ⟨_, h1, h2⟩ | ⟨rfl, rfl, h2, _⟩
    · rw [h2]; exact h.sig r' c' kv hr hc h1
    · exact h2
  · intro r' c' kv hr hc hl
    rcases key r' c' hr hc kv hl with ⟨_, h1, h2⟩ | ⟨rfl, rfl, _, h2, _⟩
    · exact h.row r' c' kv hr hc h1
    · exact h2
  · intro r' c' kv hr hc hl
    rcases key r' c' hr hc kv hl with ⟨_, h1, h2⟩ | ⟨rfl, rfl, _, _, h2, _⟩
    · exact h.span r' c' kv hr hc h1
    · exact h2
  · intro r' c1 c2 kv1 kv2 hr hc1 hc2 hl1 hl2 hk
    rcases key r' c1 hr hc1 kv1 hl1 with ⟨n1, h1, _⟩ | ⟨e1, e1', _, _, _, h1⟩ <;>
      rcases key r' c2 hr hc2 kv2 hl2 with ⟨n2, h2, _⟩ | ⟨e2, e2', _, _, _, h2⟩
    · exact h.inj r' c1 c2 kv1 kv2 hr hc1 hc2 h1 h2 hk
    · subst e2 e2'
      exact absurd hk (h2 c1 hc1 (fun e => n1 ⟨rfl, e⟩) kv1 h1)
    · subst e1 e1'
      exact absurd hk.symm (h1 c2 hc2 (fun e => n2 ⟨rfl, e⟩) kv2 h2)
    · rw [e1', e2']

/-- The entries of a row are the same. -/
def LiveSame (r : Nat) (f g : MFile) : Prop := ∀ c, c < ROW_WIDTH → g.live r c = f.live r c

theorem FileOK.sameLive {cfg : Cfg} {lo hi : Nat} {f g : MFile} (h : FileOK cfg lo hi f) (hs : g.slot = f.slot)
    (hl : ∀ r, r < NUM_ROWS → LiveSame r f g) (ho : f.writeOff ≤ g.writeOff) : FileOK cfg lo hi g :=
  h.set1 NUM_ROWS 0 ho (fun r' c' hr hc _ => ⟨by rw [hs], hl r' hr c' hc⟩) (fun h1 _ => absurd h1 (Nat.lt_irrefl _))

theorem RowVal.congr {f g : MFile} {r : Nat} (h : LiveSame r f g) {k : Bytes} {x : Option Bytes} (hv : RowVal f r k x) : RowVal g r k x := by
  cases x with
  | none => intro c hc v hl; rw [h c hc] at hl; exact hv c hc v hl
  | some v => obtain ⟨c, hc, hl⟩ := hv; exact ⟨c, hc, by rw [h c hc]; exact hl⟩

/-! ## Shards -/

theorem Shard.active_eq (s : Shard) (r : Nat) : s.active r = s.file (s.sideOf r) := by
  unfold Shard.active Shard.sideOf Shard.file
  cases s.tgt with
  | none => rfl
  | some t => simp only; by_cases h : r < t.compactedUpTo <;> simp [h]

theorem Shard.upd_file {s : Shard} {sd : Side} (p : Prim) (h : sd = .tgt → s.tgt.isSome = true) : (s.upd sd p).file sd = p.app (s.file sd) := by
  cases sd with
  | src => rfl
  | tgt =>
    have := h rfl
    unfold Shard.upd Shard.file
    cases ht : s.tgt with
    | none => rw [ht] at this; cases this
    | some t => rfl

theorem Shard.upd_other (s : Shard) (sd : Side) (p : Prim) : (s.upd sd p).file sd.other = s.file sd.other := by
  cases sd <;> rfl

theorem Shard.upd_span (s : Shard) (sd : Side) (p : Prim) : (s.upd sd p).lo = s.lo ∧ (s.upd sd p).hi = s.hi ∧ (s.upd sd p).tgt.isSome = s.tgt.isSome := by
  cases sd
  · exact ⟨rfl, rfl, rfl⟩
  · refine ⟨rfl, rfl, ?_⟩
    unfold Shard.upd; cases s.tgt <;> rfl

theorem Side.ne_other {a b : Side} (h : a ≠ b) : a = b.other := by cases a <;> cases b <;> first | rfl | exact absurd rfl h

/-- Whether a row is served by the target depends on this. -/
theorem Shard.sideOf_eq (s : Shard) (r : Nat) : s.sideOf r = if s.tgt.isSome = true ∧ r < (s.file .tgt).compactedUpTo then .tgt else .src := by
  unfold Shard.sideOf Shard.file
  cases s.tgt with
  | none => simp
  | some t => simp

theorem Shard.val_of_files {cfg : Cfg} {s : Shard} {lo hi : Nat} (h : ∀ sd, FileOK cfg lo hi (s.file sd)) {k : Bytes} {x : Option Bytes}
    (hx : RowVal (s.active (cfg.ph k).rowSel) (cfg.ph k).rowSel k x) : s.val cfg k = x := by
  unfold Shard.val Shard.get
  exact getLoop_eq (by rw [s.active_eq]; exact h _) (cfg.ph k).rowSel_lt hx

theorem Shard.val_files {cfg : Cfg} {s : Shard} {lo hi : Nat} (h : ∀ sd, FileOK cfg lo hi (s.file sd)) (k : Bytes) :
    RowVal (s.active (cfg.ph k).rowSel) (cfg.ph k).rowSel k (s.val cfg k) := by
  obtain ⟨cur, hcur⟩ := RowVal.exists (s.active (cfg.ph k).rowSel) (cfg.ph k).rowSel k
  rw [Shard.val_of_files h hcur]; exact hcur

/-! ## Actors -/

/-- An actor: the span of the shard, the row locked, the file written to, whether the row is locked for writing, whether it is a background compaction, the raw operation. -/
structure Actor where
  cfg : Cfg
  lo : Nat
  hi : Nat
  row : Nat
  sd : Side
  wr : Bool
  bg : Bool
  op : Option ROp

/-- The row has the same slots, and its entries the same data. -/
structure RowSame (r : Nat) (f g : MFile) : Prop where
  slot : ∀ c, g.slot r c = f.slot r c
  data : ∀ c, c < ROW_WIDTH → (f.slot r c).sig ≠ INVALID_SIG → ∀ b, inDesc (f.slot r c).desc b → g.data b = f.data b

theorem RowSame.refl (r : Nat) (f : MFile) : RowSame r f f := ⟨fun _ => rfl, fun _ _ _ _ _ => rfl⟩
theorem RowSame.trans {r : Nat} {f g h : MFile} (h1 : RowSame r f g) (h2 : RowSame r g h) : RowSame r f h :=
  ⟨fun c => (h2.slot c).trans (h1.slot c), fun c hc hs b hb =>
    (h2.data c hc (by rw [h1.slot]; exact hs) b (by rw [h1.slot]; exact hb)).trans (h1.data c hc hs b hb)⟩
theorem RowSame.live {r : Nat} {f g : MFile} (h : RowSame r f g) : LiveSame r f g := fun c hc => live_congr' (h.slot c) (h.data c hc)

/-- What the others may do. -/
structure Rely (X : Actor) (pen : Option Reg) (s s' : Shard) : Prop where
  has : s'.tgt.isSome = s.tgt.isSome
  rows : ∀ sd, RowSame X.row (s.file sd) (s'.file sd)
  pen : ∀ b, inReg pen b → (s'.file X.sd).data b = (s.file X.sd).data b
  cu : X.bg = true → (s'.file .tgt).compactedUpTo = (s.file .tgt).compactedUpTo

theorem Rely.refl (X : Actor) (pen : Option Reg) (s : Shard) : Rely X pen s s := ⟨rfl, fun _ => .refl _ _, fun _ _ => rfl, fun _ => rfl⟩
theorem Rely.trans {X : Actor} {pen : Option Reg} {s1 s2 s3 : Shard} (h : Rely X pen s1 s2) (h' : Rely X pen s2 s3) : Rely X pen s1 s3 :=
  ⟨h'.has.trans h.has, fun sd => (h.rows sd).trans (h'.rows sd), fun b hb => (h'.pen b hb).trans (h.pen b hb), fun e => (h'.cu e).trans (h.cu e)⟩
theorem Rely.none {X : Actor} {pen : Option Reg} {s s' : Shard} (h : Rely X pen s s') : Rely X none s s' :=
  ⟨h.has, h.rows, fun b ⟨_, e, _⟩ => (by cases e), h.cu⟩

/-- The region reserved by the actor is inside the file and no live entry reaches into it. -/
structure PenOK (f : MFile) (pen : Option Reg) : Prop where
  ext : ∀ R, pen = some R → R.1 + R.2 ≤ f.writeOff
  live : ∀ r c, r < NUM_ROWS → c < ROW_WIDTH → (f.slot r c).sig ≠ INVALID_SIG → ∀ b, inDesc (f.slot r c).desc b → ¬ inReg pen b

theorem PenOK.none (f : MFile) : PenOK f none := by
  refine ⟨fun _ e => ?_, fun _ _ _ _ _ _ _ h => ?_⟩
  · cases e
  · obtain ⟨_, e, _⟩ := h; cases e

/-- The row being copied: what is in the target already is in its place. -/
def CopyAt (row : Nat) (s : Shard) : Prop :=
  (s.file .tgt).compactedUpTo = row + 1 ∨ ((s.file .tgt).compactedUpTo = row ∧
    ∀ c, c < ROW_WIDTH → ∀ kv, (s.file .tgt).live row c = some kv → ((s.file .src).liveRow row)[c]? = some kv)

theorem CopyAt.congr {row : Nat} {s s' : Shard} (h : CopyAt row s) (hs : LiveSame row (s.file .src) (s'.file .src)) (ht : LiveSame row (s.file .tgt) (s'.file .tgt))
    (hcu : (s'.file .tgt).compactedUpTo = (s.file .tgt).compactedUpTo) : CopyAt row s' := by
  have e : (s'.file .src).liveRow row = (s.file .src).liveRow row := liveRow_congr hs
  rcases h with h | ⟨h1, h2⟩
  · exact .inl (hcu.trans h)
  · exact .inr ⟨hcu.trans h1, fun c hc kv hl => by rw [e]; exact h2 c hc kv (by rw [← ht c hc]; exact hl)⟩

/-- What is true at any time. -/
structure OKs (X : Actor) (pen : Option Reg) (s : Shard) : Prop where
  lo : s.lo = X.lo
  hi : s.hi = X.hi
  row : X.row < NUM_ROWS
  ok : ∀ sd, FileOK X.cfg X.lo X.hi (s.file sd)
  has : X.sd = .tgt → s.tgt.isSome = true
  side : X.bg = false → s.sideOf X.row = X.sd
  bgs : X.bg = true → X.sd = .tgt
  pen : PenOK (s.file X.sd) pen
  copy : X.bg = true → CopyAt X.row s

/-- What the actor may do. -/
structure Guar (X : Actor) (pen pen' : Option Reg) (s s' : Shard) : Prop where
  upd : ∃ p, s' = s.upd X.sd p
  slots : ∀ r, r ≠ X.row → ∀ c, (s'.file X.sd).slot r c = (s.file X.sd).slot r c
  data : ∀ b, ¬ inReg pen b → (s'.file X.sd).data b = (s.file X.sd).data b
  off : (s.file X.sd).writeOff ≤ (s'.file X.sd).writeOff
  ok : FileOK X.cfg X.lo X.hi (s'.file X.sd)
  reg : ∀ c, c < ROW_WIDTH → ((s'.file X.sd).slot X.row c).sig ≠ INVALID_SIG →
    (((s.file X.sd).slot X.row c).sig ≠ INVALID_SIG ∧ ((s'.file X.sd).slot X.row c).desc = ((s.file X.sd).slot X.row c).desc) ∨
    (pen' = none ∧ ∀ b, inDesc ((s'.file X.sd).slot X.row c).desc b → inReg pen b)
  pen : ∀ R, pen' = some R → pen = some R ∨ (pen = none ∧ R.1 = (s.file X.sd).writeOff ∧ R.1 + R.2 ≤ (s'.file X.sd).writeOff)
  cu : (s'.file X.sd).compactedUpTo = (s.file X.sd).compactedUpTo ∨
    (X.bg = true ∧ (s.file X.sd).compactedUpTo = X.row ∧ (s'.file X.sd).compactedUpTo = X.row + 1)
  copy : X.bg = true → CopyAt X.row s'

/-- The operation takes effect: the values change as in the ideal map. -/
inductive Commit (X : Actor) (s s' : Shard) : Ans → Prop
  | ins (k v : Bytes) (mode : Mode) (h : X.op = some (.ins k v mode))
      (hv : ∀ k', s'.val X.cfg k' = Map.upd (s.val X.cfg) k (insertAt (s.val X.cfg k) v mode).1 k') :
      Commit X s s' (.st (insertAt (s.val X.cfg k) v mode).2)
  | rem (k : Bytes) (h : X.op = some (.rem k)) (hv : ∀ k', s'.val X.cfg k' = Map.upd (s.val X.cfg) k none k') : Commit X s s' (.val (s.val X.cfg k))

/-- By how much the header of a file exceeds its contents: bytes allocated that are neither live nor counted as wasted (`true`), entries counted that are not live (`false`). -/
def surplus (f : MFile) : Bool → Int
  | true => (f.writeOff : Int) - f.wasted - liveBytes f
  | false => (f.numInserts : Int) - f.numRemovals - liveCount f

/-- What is remembered of the accesses of an actor: the answer of the operation, if it has taken effect (`cm`), and the surplus it has caused so far. -/
structure Gh where
  cm : Option Ans
  led : Bool → Int

/-- Nothing has happened yet. -/
def Gh.zero : Gh := ⟨none, fun _ => 0⟩

/-- What an access does to the values, and to the surplus. -/
def Eff (X : Actor) (g g' : Gh) (s s' : Shard) : Prop :=
  ((g'.cm = g.cm ∧ ∀ k, s'.val X.cfg k = s.val X.cfg k) ∨ (g.cm = none ∧ ∃ a, g'.cm = some a ∧ Commit X s s' a)) ∧
  (∀ k, surplus (s'.file X.sd) k - g'.led k = surplus (s.file X.sd) k - g.led k) ∧ 0 ≤ g'.led true

/-- The program, started here, is well-behaved. `cm`: what is remembered of its accesses; `pen`: the region reserved. -/
def Safe (X : Actor) {α : Type} (fin : α → Gh → Shard → Prop) : MProg α → Gh → Option Reg → Shard → Prop
  | .ret a, cm, pen, s => ∀ s', Rely X pen s s' → OKs X pen s' → fin a cm s'
  | .panic, _, _, _ => False
  | .sig sd r c k, cm, pen, s => ∀ s', Rely X pen s s' → OKs X pen s' → Safe X fin (k ((s'.file sd).slot r c).sig) cm pen s'
  | .desc sd r c k, cm, pen, s => ∀ s', Rely X pen s s' → OKs X pen s' → Safe X fin (k ((s'.file sd).slot r c).desc) cm pen s'
  | .byte sd off k, cm, pen, s => ∀ s', Rely X pen s s' → OKs X pen s' → Safe X fin (k ((s'.file sd).data off)) cm pen s'
  | .wasted sd k, cm, pen, s => ∀ s', Rely X pen s s' → OKs X pen s' → Safe X fin (k (s'.file sd).wasted) cm pen s'
  | .woff sd k, cm, pen, s => ∀ s', Rely X pen s s' → OKs X pen s' → Safe X fin (k (s'.file sd).writeOff) cm pen s'
  | .reserve sd n k, cm, pen, s => ∀ s', Rely X pen s s' → OKs X pen s' → s'.Fits → ∃ cm' pen', X.wr = true ∧ Guar X pen pen' s' (s'.upd sd (.bump n)) ∧
      Eff X cm cm' s' (s'.upd sd (.bump n)) ∧ Safe X fin (k (s'.file sd).writeOff) cm' pen' (s'.upd sd (.bump n))
  | .store sd p k, cm, pen, s => ∀ s', Rely X pen s s' → OKs X pen s' → ∃ cm' pen', X.wr = true ∧ Guar X pen pen' s' (s'.upd sd p) ∧
      Eff X cm cm' s' (s'.upd sd p) ∧ Safe X fin k cm' pen' (s'.upd sd p)

/-- Others' accesses do not matter. -/
theorem Safe.rely {X : Actor} {α : Type} {fin : α → Gh → Shard → Prop} {m : MProg α} {cm : Gh} {pen : Option Reg} {s s1 : Shard}
    (h : Safe X fin m cm pen s) (hr : Rely X pen s s1) : Safe X fin m cm pen s1 := by
  cases m with
  | panic => exact h
  | ret a => exact fun s' h1 h2 => h s' (hr.trans h1) h2
  | sig sd r c k => exact fun s' h1 h2 => h s' (hr.trans h1) h2
  | desc sd r c k => exact fun s' h1 h2 => h s' (hr.trans h1) h2
  | byte sd off k => exact fun s' h1 h2 => h s' (hr.trans h1) h2
  | wasted sd k => exact fun s' h1 h2 => h s' (hr.trans h1) h2
  | woff sd k => exact fun s' h1 h2 => h s' (hr.trans h1) h2
  | reserve sd n k => exact fun s' h1 h2 => h s' (hr.trans h1) h2
  | store sd p k => exact fun s' h1 h2 => h s' (hr.trans h1) h2

/-- One access of a well-behaved program. -/
theorem Safe.step {X : Actor} {α : Type} {fin : α → Gh → Shard → Prop} {m m' : MProg α} {cm : Gh} {pen : Option Reg} {s s' : Shard}
    (h : Safe X fin m cm pen s) (hok : OKs X pen s) (hf : s.Fits) (hs : m.step s = some (s', m')) :
    ∃ cm' pen', (s' = s ∧ cm' = cm ∧ pen' = pen ∨ X.wr = true ∧ Guar X pen pen' s s' ∧ Eff X cm cm' s s') ∧ Safe X fin m' cm' pen' s' := by
  cases m with
  | panic => cases hs
  | ret a => cases hs
  | sig sd r c k => cases hs; exact ⟨cm, pen, .inl ⟨rfl, rfl, rfl⟩, h _ (.refl _ _ _) hok⟩
  | desc sd r c k => cases hs; exact ⟨cm, pen, .inl ⟨rfl, rfl, rfl⟩, h _ (.refl _ _ _) hok⟩
  | byte sd off k => cases hs; exact ⟨cm, pen, .inl ⟨rfl, rfl, rfl⟩, h _ (.refl _ _ _) hok⟩
  | wasted sd k => cases hs; exact ⟨cm, pen, .inl ⟨rfl, rfl, rfl⟩, h _ (.refl _ _ _) hok⟩
  | woff sd k => cases hs; exact ⟨cm, pen, .inl ⟨rfl, rfl, rfl⟩, h _ (.refl _ _ _) hok⟩
  | reserve sd n k =>
    cases hs
    obtain ⟨cm', pen', h1, h2, h3, h4⟩ := h _ (.refl _ _ _) hok hf
    exact ⟨cm', pen', .inr ⟨h1, h2, h3⟩, h4⟩
  | store sd p k =>
    cases hs
    obtain ⟨cm', pen', h1, h2, h3, h4⟩ := h _ (.refl _ _ _) hok
    exact ⟨cm', pen', .inr ⟨h1, h2, h3⟩, h4⟩

/-! ## What a guarantee gives the others -/

theorem Guar.span {X : Actor} {pen pen' : Option Reg} {s s' : Shard} (h : Guar X pen pen' s s') :
    s'.lo = s.lo ∧ s'.hi = s.hi ∧ s'.tgt.isSome = s.tgt.isSome := by
  obtain ⟨p, rfl⟩ := h.upd; exact s.upd_span _ _

theorem Guar.other {X : Actor} {pen pen' : Option Reg} {s s' : Shard} (h : Guar X pen pen' s s') : s'.file X.sd.other = s.file X.sd.other := by
  obtain ⟨p, rfl⟩ := h.upd; exact s.upd_other _ _

theorem Guar.files {X : Actor} {pen pen' : Option Reg} {s s' : Shard} (h : Guar X pen pen' s s') (hok : OKs X pen s) (sd : Side) :
    FileOK X.cfg X.lo X.hi (s'.file sd) := by
  by_cases e : sd = X.sd
  · rw [e]; exact h.ok
  · rw [Side.ne_other e, h.other]; exact hok.ok _

theorem Guar.rowSame {X : Actor} {pen pen' : Option Reg} {s s' : Shard} (h : Guar X pen pen' s s') (hok : OKs X pen s) {r : Nat} (hr : r < NUM_ROWS)
    (hne : r ≠ X.row) (sd : Side) : RowSame r (s.file sd) (s'.file sd) := by
  by_cases e : sd = X.sd
  · subst e
    exact ⟨h.slots r hne, fun c hc hs b hb => h.data b (hok.pen.live r c hr hc hs b hb)⟩
  · rw [Side.ne_other e, h.other]; exact .refl _ _

/-- The row of the actor itself, if it keeps its slots. -/
theorem Guar.rowSame_self {X : Actor} {pen pen' : Option Reg} {s s' : Shard} (h : Guar X pen pen' s s') (hok : OKs X pen s)
    (hs : ∀ c, (s'.file X.sd).slot X.row c = (s.file X.sd).slot X.row c) (sd : Side) : RowSame X.row (s.file sd) (s'.file sd) := by
  by_cases e : sd = X.sd
  · subst e
    exact ⟨hs, fun c hc hv b hb => h.data b (hok.pen.live _ c hok.row hc hv b hb)⟩
  · rw [Side.ne_other e, h.other]; exact .refl _ _

theorem Guar.cu_tgt {X : Actor} {pen pen' : Option Reg} {s s' : Shard} (h : Guar X pen pen' s s') (hok : OKs X pen s) :
    (s'.file .tgt).compactedUpTo = (s.file .tgt).compactedUpTo ∨
    (X.bg = true ∧ (s.file .tgt).compactedUpTo = X.row ∧ (s'.file .tgt).compactedUpTo = X.row + 1) := by
  by_cases e : X.sd = .tgt
  · rw [← e]; exact h.cu
  · have : Side.tgt = X.sd.other := Side.ne_other (fun e' => e e'.symm)
    rw [this, h.other]; exact .inl rfl

theorem Guar.sideOf {X : Actor} {pen pen' : Option Reg} {s s' : Shard} (h : Guar X pen pen' s s') (hok : OKs X pen s) {r : Nat} (hne : r ≠ X.row) :
    s'.sideOf r = s.sideOf r := by
  rw [s'.sideOf_eq, s.sideOf_eq, h.span.2.2]
  rcases h.cu_tgt hok with e | ⟨_, e1, e2⟩
  · rw [e]
  · rw [e1, e2]
    have : r < X.row + 1 ↔ r < X.row := by omega
    simp only [this]

theorem Guar.sideOf_self {X : Actor} {pen pen' : Option Reg} {s s' : Shard} (h : Guar X pen pen' s s') (hok : OKs X pen s)
    (hcu : (s'.file X.sd).compactedUpTo = (s.file X.sd).compactedUpTo) (r : Nat) : s'.sideOf r = s.sideOf r := by
  rw [s'.sideOf_eq, s.sideOf_eq, h.span.2.2]
  have : (s'.file .tgt).compactedUpTo = (s.file .tgt).compactedUpTo := by
    by_cases e : X.sd = .tgt
    · rw [← e]; exact hcu
    · have : Side.tgt = X.sd.other := Side.ne_other (fun e' => e e'.symm)
      rw [this, h.other]
  rw [this]

/-- The actor's own region afterwards. -/
theorem Guar.penOK {X : Actor} {pen pen' : Option Reg} {s s' : Shard} (h : Guar X pen pen' s s') (hok : OKs X pen s) : PenOK (s'.file X.sd) pen' := by
  refine ⟨fun R e => ?_, fun r c hr hc hs b hb hin => ?_⟩
  · rcases h.pen R e with h1 | ⟨_, _, h1⟩
    · exact Nat.le_trans (hok.pen.ext R h1) h.off
    · exact h1
  · obtain ⟨R, e, hin⟩ := hin
    -- the region of the entry was live before
    have hold : ((s.file X.sd).slot r c).sig ≠ INVALID_SIG ∧ inDesc ((s.file X.sd).slot r c).desc b := by
      by_cases er : r = X.row
      · subst er
        rcases h.reg c hc hs with ⟨h1, h2⟩ | ⟨h1, _⟩
        · exact ⟨h1, by rw [← h2]; exact hb⟩
        · rw [h1] at e; cases e
      · rw [h.slots r er c] at hs hb; exact ⟨hs, hb⟩
    rcases h.pen R e with h1 | ⟨_, h1, _⟩
    · exact hok.pen.live r c hr hc hold.1 b hold.2 ⟨R, h1, hin⟩
    · have := (hok.ok X.sd).ext r c hr hc hold.1
      have := hold.2.2
      omega

theorem Guar.self {X : Actor} {pen pen' : Option Reg} {s s' : Shard} (h : Guar X pen pen' s s') (hok : OKs X pen s) : OKs X pen' s' := by
  obtain ⟨h1, h2, h3⟩ := h.span
  refine ⟨h1.trans hok.lo, h2.trans hok.hi, hok.row, h.files hok, fun e => by rw [h3]; exact hok.has e, fun e => ?_, hok.bgs, h.penOK hok, h.copy⟩
  rcases h.cu with e' | ⟨e', _⟩
  · rw [h.sideOf_self hok e']; exact hok.side e
  · rw [e] at e'; cases e'

/-- Two actors on one shard do not disturb each other. -/
structure Apart (X Y : Actor) (penX penY : Option Reg) : Prop where
  row : X.wr = true ∨ Y.wr = true → X.row ≠ Y.row
  bg : ¬ (X.bg = true ∧ Y.bg = true)
  pen : X.sd = Y.sd → ∀ b, inReg penX b → ¬ inReg penY b

theorem Guar.others {X Y : Actor} {pen pen' penY : Option Reg} {s s' : Shard} (h : Guar X pen pen' s s') (hok : OKs X pen s) (hw : X.wr = true)
    (hY : OKs Y penY s) (ha : Apart X Y pen penY) (hc : Y.cfg = X.cfg) :
    Rely Y penY s s' ∧ OKs Y penY s' ∧ Apart X Y pen' penY := by
  have hne : Y.row ≠ X.row := fun e => ha.row (.inl hw) e.symm
  obtain ⟨h1, h2, h3⟩ := h.span
  have hpenY : PenOK (s'.file Y.sd) penY := by
    by_cases e : X.sd = Y.sd
    · refine ⟨fun R eR => Nat.le_trans (hY.pen.ext R eR) (by rw [← e]; exact h.off), fun r c hr hcc hs b hb hin => ?_⟩
      rw [← e] at hs hb
      by_cases er : r = X.row
      · subst er
        rcases h.reg c hcc hs with ⟨g1, g2⟩ | ⟨_, g2⟩
        · rw [g2] at hb; rw [e] at g1 hb; exact hY.pen.live _ c hr hcc g1 b hb hin
        · exact ha.pen e b (g2 b hb) hin
      · rw [h.slots r er c, e] at hs hb
        exact hY.pen.live r c hr hcc hs b hb hin
    · have : Y.sd = X.sd.other := Side.ne_other (fun e' => e e'.symm)
      rw [this, h.other, ← this]; exact hY.pen
  have hcu : Y.bg = true → (s'.file .tgt).compactedUpTo = (s.file .tgt).compactedUpTo := fun e => by
    rcases h.cu_tgt hok with e' | ⟨e', _⟩
    · exact e'
    · exact absurd ⟨e', e⟩ ha.bg
  refine ⟨⟨h3, fun sd => h.rowSame hok hY.row hne sd, fun b hb => ?_, hcu⟩, ⟨h1.trans hY.lo, h2.trans hY.hi, hY.row, ?_, fun e => by rw [h3]; exact hY.has e,
    fun e => by rw [h.sideOf hok hne]; exact hY.side e, hY.bgs, hpenY, fun e => (hY.copy e).congr (h.rowSame hok hY.row hne _).live (h.rowSame hok hY.row hne _).live (hcu e)⟩, ⟨ha.row, ha.bg, fun e b hb hb' => ?_⟩⟩
  · by_cases e : X.sd = Y.sd
    · rw [← e]; exact h.data b (fun hp => ha.pen e b hp hb)
    · have : Y.sd = X.sd.other := Side.ne_other (fun e' => e e'.symm)
      rw [this, h.other]
  · intro sd
    have e1 : X.lo = Y.lo := hok.lo.symm.trans hY.lo
    have e2 : X.hi = Y.hi := hok.hi.symm.trans hY.hi
    rw [hc, ← e1, ← e2]; exact h.files hok sd
  · obtain ⟨R, eR, hin⟩ := hb
    rcases h.pen R eR with g | ⟨_, g, _⟩
    · exact ha.pen e b ⟨R, g, hin⟩ hb'
    · obtain ⟨R', eR', hin'⟩ := hb'
      have := hY.pen.ext R' eR'
      rw [← e] at this
      omega

/-! ## Values -/

/-- The values do not change if the rows served do not. -/
theorem vals_same {cfg : Cfg} {lo hi : Nat} {s s' : Shard} (h : ∀ sd, FileOK cfg lo hi (s.file sd)) (h' : ∀ sd, FileOK cfg lo hi (s'.file sd))
    (hl : ∀ r, r < NUM_ROWS → LiveSame r (s.active r) (s'.active r)) (k : Bytes) : s'.val cfg k = s.val cfg k :=
  Shard.val_of_files h' ((Shard.val_files h k).congr (hl _ (cfg.ph k).rowSel_lt))

/-- The values change at one key only. -/
theorem vals_upd {cfg : Cfg} {lo hi : Nat} {s s' : Shard} (h : ∀ sd, FileOK cfg lo hi (s.file sd)) (h' : ∀ sd, FileOK cfg lo hi (s'.file sd)) {row : Nat}
    (hl : ∀ r, r < NUM_ROWS → r ≠ row → LiveSame r (s.active r) (s'.active r)) {k : Bytes} {x : Option Bytes} (hk : (cfg.ph k).rowSel = row)
    (hx : RowVal (s'.active row) row k x)
    (ho : ∀ k', k' ≠ k → ∀ y, RowVal (s.active row) row k' y → RowVal (s'.active row) row k' y) (k' : Bytes) :
    s'.val cfg k' = Map.upd (s.val cfg) k x k' := by
  by_cases e : k' = k
  · subst e
    rw [Map.upd_same]
    exact Shard.val_of_files h' (by rw [hk]; exact hx)
  · rw [Map.upd_other _ _ e]
    by_cases er : (cfg.ph k').rowSel = row
    · have := Shard.val_files h k'
      rw [er] at this
      exact Shard.val_of_files h' (by rw [er]; exact ho k' e _ this)
    · exact Shard.val_of_files h' ((Shard.val_files h k').congr (hl _ (cfg.ph k').rowSel_lt er))

theorem Guar.active_other {X : Actor} {pen pen' : Option Reg} {s s' : Shard} (h : Guar X pen pen' s s') (hok : OKs X pen s) {r : Nat} (hr : r < NUM_ROWS)
    (hne : r ≠ X.row) : LiveSame r (s.active r) (s'.active r) := by
  rw [s.active_eq, s'.active_eq, h.sideOf hok hne]
  exact (h.rowSame hok hr hne _).live

/-- An access that keeps the slots of the row keeps the values. -/
theorem Guar.vals {X : Actor} {pen pen' : Option Reg} {s s' : Shard} (h : Guar X pen pen' s s') (hok : OKs X pen s)
    (hs : LiveSame X.row (s.active X.row) (s'.active X.row)) (k : Bytes) : s'.val X.cfg k = s.val X.cfg k :=
  vals_same hok.ok (h.files hok) (fun r hr => by
    by_cases e : r = X.row
    · rw [e]; exact hs
    · exact h.active_other hok hr e) k

end Candy
