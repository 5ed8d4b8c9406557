import Verif.Props.Lists
import Verif.Props.Queues
import Verif.Spec.Typed
/-!
# C37: the typed wrappers
-/
namespace Candy.Props
open Candy.Spec

variable {K V L : Type}

theorem good_inj {T : Type} {c : Codec T} (h : Good c) {x y : T} (e : c.enc x = c.enc y) : x = y := by
  have := h x
  rw [e, h y] at this
  exact (Option.some.inj this).symm

theorem idBytes_length (id : UInt32) : (idBytes id).length = 4 := by simp [idBytes]

theorem idBytes_inj {a b : UInt32} (h : idBytes a = idBytes b) : a = b := by
  simp only [idBytes, List.range, List.range.loop, List.map, List.cons.injEq, and_true] at h
  obtain ⟨h0, h1, h2, h3⟩ := h
  have k0 := congrArg UInt8.toNat h0
  have k1 := congrArg UInt8.toNat h1
  have k2 := congrArg UInt8.toNat h2
  have k3 := congrArg UInt8.toNat h3
  simp only [UInt8.toNat_ofNat', Nat.reducePow, Nat.div_one] at k0 k1 k2 k3
  have ha := a.toNat_lt
  have hb := b.toNat_lt
  apply UInt32.toNat_inj.1
  omega

/-! ## Typed stores -/

/-- The calls of a typed store with type id `id`. -/
def typedCallOf (id : UInt32) (c : Call) : Prop := ∃ p op, c = .typed (p ++ idBytes id) op

/-- **C37**, isolation: the calls of wrappers with another type id are not calls of this one, whatever the serializations. -/
theorem C37_types_apart {K' V' : Type} (w : TStore K V) (w' : TStore K' V') (h : w'.id ≠ w.id) (k : K') (op : KvOp) :
    ¬ typedCallOf w.id (.typed (w'.key k) op) := by
  rintro ⟨p, op', e⟩
  simp only [Call.typed.injEq] at e
  have := congrArg List.reverse e.1
  unfold TStore.key at this
  rw [List.reverse_append, List.reverse_append] at this
  have := (List.append_inj this (by simp [idBytes_length])).1
  exact h (idBytes_inj (List.reverse_inj.1 this))

theorem key_inj {w : TStore K V} (hk : Good w.kc) {k k' : K} (h : w.key k = w.key k') : k = k' :=
  good_inj hk (List.append_cancel_right h)

theorem tkv_answer [DecidableEq V] {c : Codec V} (hc : Good c) (cur : Option V) (op : TKvOp V) :
    op.finish (K := K) c (.ok (kvAnswer (cur.map c.enc) (op.raw c)).1) = .ok (tkvAnswer cur op).1 ∧
    (kvAnswer (cur.map c.enc) (op.raw c)).2 = (tkvAnswer (K := K) cur op).2.map c.enc := by
  have hd : ∀ v, c.dec (c.enc v) = some v := hc
  cases op with
  | get => cases cur <;> simp [TKvOp.raw, TKvOp.finish, kvAnswer, tkvAnswer, TRes.lift, decodeOpt, TRes.decoded, hd]
  | contains => cases cur <;> simp [TKvOp.raw, TKvOp.finish, kvAnswer, tkvAnswer, TRes.lift]
  | remove => cases cur <;> simp [TKvOp.raw, TKvOp.finish, kvAnswer, tkvAnswer, TRes.lift, decodeOpt, TRes.decoded, hd]
  | set v => cases cur <;> simp [TKvOp.raw, TKvOp.finish, kvAnswer, tkvAnswer, TRes.lift, decodeOpt, TRes.decoded, hd]
  | getOrCreate v => cases cur <;> simp [TKvOp.raw, TKvOp.finish, kvAnswer, tkvAnswer, TRes.lift, TRes.decoded, GocStatus.value, hd]
  | replace v e =>
    cases cur with
    | none => simp [TKvOp.raw, TKvOp.finish, kvAnswer, tkvAnswer, TRes.lift]
    | some old =>
      cases e with
      | none => simp [TKvOp.raw, TKvOp.finish, kvAnswer, tkvAnswer, TRes.lift, decodeOpt, TRes.decoded, hd]
      | some e =>
        by_cases h : e = old
        · subst h; simp [TKvOp.raw, TKvOp.finish, kvAnswer, tkvAnswer, TRes.lift, decodeOpt, TRes.decoded, hd]
        · have h' : c.enc e ≠ c.enc old := fun x => h (good_inj hc x)
          simp [TKvOp.raw, TKvOp.finish, kvAnswer, tkvAnswer, TRes.lift, h, h']

theorem typed_upd [DecidableEq K] {w : TStore K V} (hk : Good w.kc) {m : Map} {f : K → Option V} (hm : ∀ k, m (w.key k) = (f k).map w.vc.enc)
    (k : K) (x : Option V) (k' : K) : m.upd (w.key k) (x.map w.vc.enc) (w.key k') = (if k' = k then x else f k').map w.vc.enc := by
  by_cases e : k' = k
  · subst e; rw [Map.upd_same, if_pos rfl]
  · rw [Map.upd_other _ _ (fun h => e (key_inj hk h)), if_neg e, hm]

theorem typed_sees [DecidableEq K] [DecidableEq V] {cfg : Cfg} {w : TStore K V} (hk : Good w.kc) (hv : Good w.vc) {es ts}
    (hsee : Sees (fun p : K × TKvOp V => .typed (w.key p.1) (p.2.raw w.vc)) (fun p => p.2.finish w.vc) (typedCallOf w.id) es ts) :
    ∀ {u u' : World} {f : K → Option V}, SpecRun cfg u es u' → (∀ k, u.typed (w.key k) = (f k).map w.vc.enc) → LikeTypedMap cfg w f ts := by
  induction hsee with
  | nil => intros; trivial
  | @call es ts p r rest ih =>
    obtain ⟨k, op⟩ := p
    intro u u' f hr hm
    cases hr with
    | call h hr =>
      obtain ⟨m', h1, rfl⟩ := h
      unfold LikeTypedMap
      unfold kvStep at h1
      dsimp only at h1 ⊢
      cases he : typedError cfg (w.key k) (op.raw w.vc) with
      | some e =>
        rw [he] at h1
        obtain ⟨rfl, rfl⟩ := h1
        exact ⟨by cases op <;> rfl, ih hr hm⟩
      | none =>
        rw [he] at h1
        obtain ⟨rfl, rfl⟩ := h1
        dsimp only at hr ⊢
        rw [hm] at hr ⊢
        obtain ⟨a1, a2⟩ := tkv_answer (K := K) hv (f k) op
        refine ⟨a1, ih hr (fun k' => ?_)⟩
        rw [a2]
        exact typed_upd hk hm k _ k'
  | @crash es ts p rest ih =>
    obtain ⟨k, op⟩ := p
    intro u u' f hr hm
    cases hr with
    | crash h hr =>
      obtain ⟨m', h1, rfl⟩ := h
      unfold LikeTypedMap
      rcases h1 with rfl | ⟨e, rfl⟩
      · exact Or.inl (ih hr hm)
      · refine Or.inr ⟨e, ih hr (fun k' => ?_)⟩
        dsimp only
        rw [hm, (tkv_answer (K := K) hv (f k) op).2]
        exact typed_upd hk hm k _ k'
  | @clear es ts rest ih =>
    intro u u' f hr hm
    cases hr with
    | clear hr => exact ih hr (fun k => rfl)
  | @skip es ts e hmine hc rest ih =>
    intro u u' f hr hm
    cases hr with
    | @call _ w1 _ c r _ h hr =>
      cases c with
      | kv k op => obtain ⟨m', _, rfl⟩ := h; exact ih hr hm
      | list k op => obtain ⟨m', _, rfl⟩ := h; exact ih hr hm
      | queue k op => obtain ⟨m', _, rfl⟩ := h; exact ih hr hm
      | typed tk op =>
        obtain ⟨m', h1, rfl⟩ := h
        refine ih hr (fun k => ?_)
        have hne : w.key k ≠ tk := fun e => hmine _ rfl ⟨w.kc.enc k, op, by rw [← e]; rfl⟩
        unfold kvStep at h1
        dsimp only
        cases he : typedError cfg tk op with
        | some e => rw [he] at h1; rw [h1.2]; exact hm k
        | none => rw [he] at h1; rw [h1.2, Map.upd_other _ _ hne]; exact hm k
    | merge hr => exact ih hr hm
    | clear hr => exact absurd rfl hc
    | reopen hr => exact ih hr hm
    | @crash _ w1 _ c _ h hr =>
      cases c with
      | none => cases h; exact ih hr hm
      | some c =>
        cases c with
        | kv k op => obtain ⟨m', _, rfl⟩ := h; exact ih hr hm
        | list k op => obtain ⟨m', _, rfl⟩ := h; exact ih hr hm
        | queue k op => obtain ⟨m', _, rfl⟩ := h; exact ih hr hm
        | typed tk op =>
          obtain ⟨m', h1, rfl⟩ := h
          refine ih hr (fun k => ?_)
          have hne : w.key k ≠ tk := fun e => hmine _ rfl ⟨w.kc.enc k, op, by rw [← e]; rfl⟩
          dsimp only
          rcases h1 with rfl | ⟨_, rfl⟩
          · exact hm k
          · rw [Map.upd_other _ _ hne]; exact hm k

/-- **C37**, typed stores: for every faithful serialization of keys and values and every history in which the pairs of this type id are only accessed
through the wrapper - mixed in any way with all other calls, including those of typed stores with other type ids -
the answers of the wrapper are those of an ideal map from typed keys to typed values. -/
theorem C37_typed_store [DecidableEq K] [DecidableEq V] {cfg : Cfg} {es : List Event} {t : Tree} {w : TStore K V} {ts : List (TEvent (K × TKvOp V) (TRes (TResp K V)))}
    (h : Reachable cfg es t) (hk : Good w.kc) (hv : Good w.vc)
    (hsee : Sees (fun p : K × TKvOp V => .typed (w.key p.1) (p.2.raw w.vc)) (fun p => p.2.finish w.vc) (typedCallOf w.id) es ts) :
    LikeTypedMap cfg w (fun _ => none) ts := by
  obtain ⟨u, h1, _⟩ := h.world
  exact typed_sees hk hv hsee h1 (fun k => rfl)

/-! ## Typed lists -/

/-- The serialized item. -/
def encItem (kc : Codec K) (vc : Codec V) (p : K × V) : KV := (kc.enc p.1, vc.enc p.2)

theorem enc_get [DecidableEq K] {kc : Codec K} {vc : Codec V} (hk : Good kc) (l : List (K × V)) (k : K) :
    OList.get (l.map (encItem kc vc)) (kc.enc k) = (tGet l k).map vc.enc := by
  unfold OList.get tGet
  induction l with
  | nil => rfl
  | cons p l ih =>
    rw [List.map_cons, List.find?_cons, List.find?_cons]
    by_cases e : p.1 = k
    · subst e; simp [encItem]
    · have : kc.enc p.1 ≠ kc.enc k := fun h => e (good_inj hk h)
      simp only [encItem, this, decide_false, e]
      exact ih

theorem enc_erase [DecidableEq K] {kc : Codec K} {vc : Codec V} (hk : Good kc) (l : List (K × V)) (k : K) :
    OList.erase (l.map (encItem kc vc)) (kc.enc k) = (tErase l k).map (encItem kc vc) := by
  unfold OList.erase tErase
  rw [List.filter_map]
  congr 1
  apply List.filter_congr
  intro p _
  have : (kc.enc p.1 = kc.enc k) ↔ p.1 = k := ⟨fun h => good_inj hk h, fun h => by rw [h]⟩
  show decide (¬ (kc.enc p.1 = kc.enc k)) = decide (¬ (p.1 = k))
  exact decide_eq_decide.2 (not_congr this)

theorem enc_set [DecidableEq K] {kc : Codec K} {vc : Codec V} (hk : Good kc) (l : List (K × V)) (k : K) (v : V) :
    OList.set (l.map (encItem kc vc)) (kc.enc k) (vc.enc v) = (tSet l k v).map (encItem kc vc) := by
  unfold OList.set tSet
  rw [enc_get hk, Option.isSome_map]
  split
  · rw [List.map_map, List.map_map]
    apply List.map_congr_left
    intro p _
    show (if (encItem kc vc p).1 = kc.enc k then (kc.enc k, vc.enc v) else encItem kc vc p) = encItem kc vc (if p.1 = k then (k, v) else p)
    by_cases e : p.1 = k
    · rw [if_pos e, if_pos (by rw [← e]; rfl)]; rfl
    · have : ¬ ((encItem kc vc p).1 = kc.enc k) := fun h => e (good_inj hk h)
      rw [if_neg e, if_neg this]
  · rw [List.map_append]; rfl

theorem enc_dir {kc : Codec K} {vc : Codec V} (l : List (K × V)) (fwd : Bool) :
    OList.dir (l.map (encItem kc vc)) fwd = (tDir l fwd).map (encItem kc vc) := by
  unfold OList.dir tDir
  split
  · rfl
  · rw [List.map_reverse]

theorem dec_item {kc : Codec K} {vc : Codec V} (hk : Good kc) (hv : Good vc) (p : K × V) : decodeItem kc vc (encItem kc vc p) = some p := by
  unfold decodeItem encItem
  dsimp only
  rw [hk, hv]

theorem dec_items {kc : Codec K} {vc : Codec V} (hk : Good kc) (hv : Good vc) (l : List (K × V)) :
    decodeItems kc vc (l.map (encItem kc vc)) = some l := by
  induction l with
  | nil => rfl
  | cons p l ih =>
    rw [List.map_cons, decodeItems, dec_item hk hv, ih]

theorem dec_val {c : Codec V} (hv : Good c) (o : Option V) : decodeOpt (K := K) c (o.map c.enc) = .ok (.val o) := by
  cases o with
  | none => rfl
  | some v => simp [decodeOpt, TRes.decoded, hv v]

theorem tl_answer [DecidableEq K] {kc : Codec K} {vc : Codec V} (hk : Good kc) (hv : Good vc) {s : TLState K V} {op : TLOp K V} {a : Resp} {l1 : OList}
    (h : lAnswer ⟨s.items.map (encItem kc vc), s.clean, s.used⟩ (op.raw kc vc) a l1) :
    ∃ b l', op.finish kc vc (.ok a) = .ok b ∧ tlAnswer vc s op b l' ∧ l1 = l'.map (encItem kc vc) := by
  have hg := enc_get (vc := vc) hk s.items
  have hdv : ∀ v, decodeOpt (K := K) vc (some (vc.enc v)) = .ok (.val (some v)) := fun v => dec_val hv (some v)
  cases op with
  | contains k =>
    obtain ⟨rfl, rfl⟩ := h
    exact ⟨.flag (tGet s.items k).isSome, s.items, by simp [TLOp.finish, TRes.lift, hg, TLOp.raw], ⟨rfl, rfl⟩, rfl⟩
  | get k =>
    obtain ⟨rfl, rfl⟩ := h
    exact ⟨.val (tGet s.items k), s.items, by simp only [TLOp.finish, TRes.lift, hg, dec_val hv], ⟨rfl, rfl⟩, rfl⟩
  | set k v =>
    obtain ⟨rfl, rfl⟩ := h
    refine ⟨.val (tGet s.items k), _, ?_, ⟨rfl, rfl⟩, enc_set hk _ _ _⟩
    dsimp only
    rw [hg]
    cases tGet s.items k with
    | none => rfl
    | some old => exact hdv old
  | setPromoting k v =>
    obtain ⟨rfl, rfl⟩ := h
    refine ⟨.val none, _, rfl, ⟨rfl, rfl⟩, ?_⟩
    rw [List.map_append, ← enc_erase hk]; rfl
  | getOrCreate k v =>
    unfold lAnswer at h
    simp only [TLOp.raw, hg] at h
    cases hc : tGet s.items k with
    | none =>
      rw [hc] at h
      obtain ⟨rfl, rfl⟩ := h
      exact ⟨.one v, tSet s.items k v, by simp [TLOp.finish, TRes.lift, GocStatus.value, hv v, TRes.decoded], ⟨by simp [hc], by simp [hc]⟩, enc_set hk _ _ _⟩
    | some old =>
      rw [hc] at h
      obtain ⟨rfl, rfl⟩ := h
      exact ⟨.one old, s.items, by simp [TLOp.finish, TRes.lift, GocStatus.value, hv old, TRes.decoded], ⟨by simp [hc], by simp [hc]⟩, rfl⟩
  | replace k v e =>
    unfold lAnswer at h
    cases e with
    | none =>
      simp only [TLOp.raw, Option.map_none, hg] at h
      cases hc : tGet s.items k with
      | none =>
        rw [hc] at h
        obtain ⟨rfl, rfl⟩ := h
        exact ⟨.val none, s.items, rfl, ⟨by simp [hc], by simp [hc]⟩, rfl⟩
      | some old =>
        rw [hc] at h
        obtain ⟨rfl, rfl⟩ := h
        exact ⟨.val (some old), tSet s.items k v, hdv old, ⟨by simp [hc], by simp [hc]⟩, enc_set hk _ _ _⟩
    | some e =>
      simp only [TLOp.raw, Option.map_some, hg] at h
      cases hc : tGet s.items k with
      | none =>
        rw [hc] at h
        obtain ⟨rfl, rfl⟩ := h
        exact ⟨.val none, s.items, rfl, Or.inl ⟨rfl, rfl⟩, rfl⟩
      | some old =>
        rw [hc] at h
        rcases h with ⟨rfl, rfl⟩ | ⟨h8, rfl, rfl⟩
        · exact ⟨.val none, s.items, rfl, Or.inl ⟨rfl, rfl⟩, rfl⟩
        · exact ⟨.val (some old), tSet s.items k v, hdv old, Or.inr ⟨h8, by simp [hc], rfl, by simp [hc]⟩, enc_set hk _ _ _⟩
  | remove k =>
    obtain ⟨rfl, rfl⟩ := h
    exact ⟨.val (tGet s.items k), _, by simp only [TLOp.finish, TRes.lift, hg, dec_val hv], ⟨rfl, rfl⟩, enc_erase hk _ _⟩
  | iter fwd =>
    obtain ⟨rfl, rfl⟩ := h
    refine ⟨.items (tDir s.items fwd), s.items, ?_, ⟨rfl, rfl⟩, rfl⟩
    simp only [TLOp.finish, TRes.lift, enc_dir, dec_items hk hv, TRes.decoded]
  | peek fwd =>
    obtain ⟨rfl, rfl⟩ := h
    refine ⟨.item (tDir s.items fwd).head?, s.items, ?_, ⟨rfl, rfl⟩, rfl⟩
    simp only [TLOp.finish, TRes.lift, enc_dir, List.head?_map]
    cases (tDir s.items fwd).head? with
    | none => rfl
    | some p => simp only [Option.map_some, decodeItemOpt, dec_item hk hv, TRes.decoded]
  | pop fwd =>
    obtain ⟨rfl, h2⟩ := h
    simp only [enc_dir, List.head?_map] at h2
    refine ⟨.item (tDir s.items fwd).head?, match (tDir s.items fwd).head? with | none => s.items | some p => tErase s.items p.1, ?_, ⟨rfl, rfl⟩, ?_⟩
    · simp only [TLOp.finish, TRes.lift, enc_dir, List.head?_map]
      cases (tDir s.items fwd).head? with
      | none => rfl
      | some p => simp only [Option.map_some, decodeItemOpt, dec_item hk hv, TRes.decoded]
    · rw [h2]
      cases (tDir s.items fwd).head? with
      | none => rfl
      | some p => exact enc_erase hk _ _
  | compact par =>
    obtain ⟨rfl, b, rfl⟩ := h
    exact ⟨.flag b, s.items, rfl, ⟨rfl, b, rfl⟩, rfl⟩
  | discard =>
    obtain ⟨rfl, b, rfl, hb⟩ := h
    exact ⟨.flag b, [], rfl, ⟨rfl, b, rfl, fun hne => hb (by simpa using hne)⟩, rfl⟩
  | len =>
    obtain ⟨rfl, n, rfl, hn⟩ := h
    exact ⟨.num n, s.items, rfl, ⟨rfl, n, rfl, fun hc => by rw [hn hc, List.length_map]⟩, rfl⟩

theorem tl_cost {kc : Codec K} {vc : Codec V} (l : List (K × V)) (op : TLOp K V) :
    LOp.cost (l.map (encItem kc vc)) (op.raw kc vc) = TLOp.cost l op := by
  cases op <;> simp [TLOp.raw, LOp.cost, TLOp.cost]

theorem tl_stores [DecidableEq K] {kc : Codec K} {vc : Codec V} (hk : Good kc) {l : List (K × V)} {op : TLOp K V} {ik v l1}
    (h : LOp.stores? (l.map (encItem kc vc)) (op.raw kc vc) = some (ik, v, l1)) :
    ∃ k x l', TLOp.stores? l op = some (k, x, l') ∧ ik = kc.enc k ∧ v = vc.enc x ∧ l1 = l'.map (encItem kc vc) := by
  cases op <;> simp only [TLOp.raw, LOp.stores?, Option.some.injEq, Prod.mk.injEq, reduceCtorEq] at h
  · obtain ⟨rfl, rfl, rfl⟩ := h; exact ⟨_, _, _, rfl, rfl, rfl, rfl⟩
  · obtain ⟨rfl, rfl, rfl⟩ := h; exact ⟨_, _, _, rfl, rfl, rfl, enc_erase hk _ _⟩
  · obtain ⟨rfl, rfl, rfl⟩ := h; exact ⟨_, _, _, rfl, rfl, rfl, rfl⟩
  · obtain ⟨rfl, rfl, rfl⟩ := h; exact ⟨_, _, _, rfl, rfl, rfl, rfl⟩

/-- The calls on one list. -/
def listCallOf (lk : Bytes) (c : Call) : Prop := ∃ op, c = .list lk op

theorem tlist_sees [DecidableEq K] {cfg : Cfg} {w : TList L K V} (hk : Good w.kc) (hv : Good w.vc) {lk : L} {es ts}
    (hsee : Sees (fun op : TLOp K V => .list (w.key lk) (op.raw w.kc w.vc)) (fun op => op.finish w.kc w.vc) (listCallOf (w.key lk)) es ts) :
    ∀ {s : TLState K V}, LikeIdealList cfg (w.key lk) (some ⟨s.items.map (encItem w.kc w.vc), s.clean, s.used⟩) es → LikeTypedList cfg w lk s ts := by
  induction hsee with
  | nil => intros; trivial
  | @call es ts op r rest ih =>
    intro s hl
    unfold LikeIdealList at hl
    rw [if_pos rfl] at hl
    obtain ⟨x, ⟨s1, h1, rfl⟩, hl⟩ := hl
    cases r with
    | ok a =>
      obtain ⟨g1, g2, g3⟩ := h1
      obtain ⟨b, l', e1, e2, e3⟩ := tl_answer hk hv g1
      rw [e1]
      refine ⟨l', e2, ih (s := ⟨l', s.clean, s.used + TLOp.cost s.items op⟩) ?_⟩
      rw [tl_cost] at g3
      have : s1 = ⟨l'.map (encItem w.kc w.vc), s.clean, s.used + TLOp.cost s.items op⟩ := by
        cases s1; dsimp only at g2 g3 e3; rw [g2, g3, e3]
      rw [← this]; exact hl
    | err e =>
      obtain ⟨ik, v, l1, g1, g2, g3, g4, g5⟩ := h1
      obtain ⟨k, y, l', e1, rfl, rfl, e4⟩ := tl_stores hk g1
      have : op.finish w.kc w.vc (.err e) = .err e := by cases op <;> rfl
      rw [this]
      refine ⟨k, y, l', e1, g2, ih (s := ⟨l', false, s.used + TLOp.cost s.items op⟩) ?_⟩
      rw [tl_cost] at g5
      have : s1 = ⟨l'.map (encItem w.kc w.vc), false, s.used + TLOp.cost s.items op⟩ := by
        cases s1; dsimp only at g3 g4 g5; rw [g3, g4, g5, e4]
      rw [← this]; exact hl
    | panic => exact h1.elim
    | exhausted =>
      have : op.finish w.kc w.vc (.exhausted) = .exhausted := by cases op <;> rfl
      rw [this]
      have h2 : 9223372036854775808 ≤ s.used + LOp.cost (s.items.map (encItem w.kc w.vc)) (op.raw w.kc w.vc) := h1
      rw [tl_cost] at h2
      exact h2
  | @crash es ts op rest ih => intros; trivial
  | @clear es ts rest ih => intro s hl; exact ih (s := ⟨[], true, 0⟩) hl
  | @skip es ts e hmine hc rest ih =>
    intro s hl
    cases e with
    | call c r =>
      cases c with
      | list k op =>
        have hne : k ≠ w.key lk := fun e => hmine _ rfl ⟨op, by rw [e]⟩
        unfold LikeIdealList at hl
        rw [if_neg hne] at hl
        exact ih hl
      | kv k op => exact ih hl
      | typed k op => exact ih hl
      | queue k op => exact ih hl
    | merge b => exact ih hl
    | clear => exact absurd rfl hc
    | reopen => exact ih hl
    | crash c =>
      cases c with
      | none => exact ih hl
      | some c =>
        cases c with
        | list k op =>
          have hne : k ≠ w.key lk := fun e => hmine _ rfl ⟨op, by rw [e]⟩
          unfold LikeIdealList at hl
          rw [if_neg hne] at hl
          exact ih hl
        | kv k op => exact ih hl
        | typed k op => exact ih hl
        | queue k op => exact ih hl

/-- **C37**, typed lists: for every faithful serialization and every history in which the list is only accessed through the wrapper (and no list whose
key has the same 64-bit hash is used, C27) the answers are those of an ideal insertion-ordered map of typed keys to typed values. In particular
deserialization never fails. -/
theorem C37_typed_list [DecidableEq K] {cfg : Cfg} {es : List Event} {t : Tree} {w : TList L K V} {lk : L} {ts : List (TEvent (TLOp K V) (TRes (TResp K V)))}
    (h : Reachable cfg es t) (hk : Good w.kc) (hv : Good w.vc) (hn : NoClash cfg (w.key lk) es)
    (hsee : Sees (fun op : TLOp K V => .list (w.key lk) (op.raw w.kc w.vc)) (fun op => op.finish w.kc w.vc) (listCallOf (w.key lk)) es ts) :
    LikeTypedList cfg w lk ⟨[], true, 0⟩ ts := by
  obtain ⟨u, h1, _⟩ := h.world
  exact tlist_sees hk hv hsee (s := ⟨[], true, 0⟩) (specRun_likeList h1 hn)

/-- Typed lists and typed queues with different type ids or different list keys have different keys. -/
theorem C37_list_keys_apart {L' K' V' : Type} (w : TList L K V) (w' : TList L' K' V') (l : L) (l' : L') (h : w.key l = w'.key l') :
    w.id = w'.id ∧ w.lc.enc l = w'.lc.enc l' := by
  have := List.append_inj' h (by simp [idBytes_length])
  exact ⟨idBytes_inj this.2, this.1⟩

/-! ## Typed queues and big values -/

/-- The serialized element. -/
def encElem (c : Codec V) (p : Nat × V) : Nat × Bytes := (p.1, c.enc p.2)

theorem dec_elems {c : Codec V} (hv : Good c) (l : List (Nat × V)) : decodeElems c (l.map (encElem c)) = some l := by
  induction l with
  | nil => rfl
  | cons p l ih => rw [List.map_cons, encElem, decodeElems, ih, hv]

theorem dec_elemOpt {c : Codec V} (hv : Good c) (o : Option (Nat × V)) : decodeElemOpt (K := K) c (o.map (encElem c)) = .ok (.elem o) := by
  cases o with
  | none => rfl
  | some p => simp [decodeElemOpt, encElem, TRes.decoded, hv p.2]

/-- The serialized deque. -/
def encDeque (c : Codec V) (q : TDeque V) : Deque := ⟨q.range, q.elems.map (encElem c)⟩

theorem enc_elemsDir {c : Codec V} (q : TDeque V) (fwd : Bool) : (encDeque c q).dir fwd = (tDir q.elems fwd).map (encElem c) := by
  unfold Deque.dir tDir encDeque
  split
  · rfl
  · rw [List.map_reverse]

theorem tq_answer {c : Codec V} (hv : Good c) {q : TDeque V} {n : Nat} {op : TQOp V} {a : Resp} {q1 : Deque}
    (h : qAnswer ⟨encDeque c q, true, n⟩ (op.raw c) a q1) :
    ∃ b q', op.finish (K := K) c (.ok a) = .ok b ∧ tqAnswer q op b q' ∧ q1 = encDeque c q' := by
  cases op with
  | push pos v =>
    cases pos with
    | head =>
      obtain ⟨rfl, rfl⟩ := h
      refine ⟨.unit, _, rfl, ⟨rfl, rfl⟩, ?_⟩
      unfold Deque.pushHead TDeque.pushHead encDeque Deque.headIdx
      cases q.range with
      | none => rfl
      | some p => rfl
    | tail =>
      obtain ⟨rfl, rfl⟩ := h
      refine ⟨.unit, _, rfl, ⟨rfl, rfl⟩, ?_⟩
      unfold Deque.pushTail TDeque.pushTail encDeque Deque.tailIdx
      cases q.range with
      | none => simp [encElem]
      | some p => simp [encElem]
  | pop pos =>
    cases pos with
    | head =>
      obtain ⟨rfl, rfl⟩ := h
      refine ⟨.elem q.elems.head?, _, ?_, ⟨rfl, rfl⟩, ?_⟩
      · have : (encDeque c q).elems.head? = q.elems.head?.map (encElem c) := List.head?_map
        simp only [TQOp.finish, TRes.lift, this, dec_elemOpt hv]
      · unfold Deque.popHead TDeque.popHead encDeque
        cases q.range with
        | none => rfl
        | some p =>
          cases q.elems with
          | nil => rfl
          | cons e l => rfl
    | tail =>
      obtain ⟨rfl, rfl⟩ := h
      have hl : (encDeque c q).elems.getLast? = q.elems.getLast?.map (encElem c) := List.getLast?_map
      refine ⟨.elem q.elems.getLast?, _, ?_, ⟨rfl, rfl⟩, ?_⟩
      · simp only [TQOp.finish, TRes.lift, hl, dec_elemOpt hv]
      · unfold Deque.popTail TDeque.popTail
        rw [hl]
        unfold encDeque
        dsimp only
        cases q.range with
        | none => rfl
        | some p =>
          cases q.elems.getLast? with
          | none => rfl
          | some e => simp [encElem, List.map_dropLast]
  | peek fwd =>
    obtain ⟨rfl, rfl⟩ := h
    refine ⟨.elem (tDir q.elems fwd).head?, q, ?_, ⟨rfl, rfl⟩, rfl⟩
    simp only [TQOp.finish, TRes.lift, enc_elemsDir, List.head?_map, dec_elemOpt hv]
  | iter fwd =>
    obtain ⟨rfl, rfl⟩ := h
    refine ⟨.elems (tDir q.elems fwd), q, ?_, ⟨rfl, rfl⟩, rfl⟩
    simp only [TQOp.finish, TRes.lift, enc_elemsDir, dec_elems hv]
  | len =>
    obtain ⟨rfl, m, rfl, hm⟩ := h
    exact ⟨.num m, q, rfl, ⟨rfl, by rw [hm rfl]; simp [encDeque]⟩, rfl⟩
  | range =>
    obtain ⟨rfl, rfl⟩ := h
    exact ⟨.range _, q, rfl, ⟨rfl, rfl⟩, rfl⟩

/-- The calls on one queue (or big value). -/
def queueCallOf (qk : Bytes) (c : Call) : Prop := ∃ op, c = .queue qk op

/-- Events that are not calls on the queue do not matter to it. -/
theorem queue_skip {cfg : Cfg} {qk : Bytes} {s : Option QState} {e : Event} {es : List Event} (hmine : ∀ c, e.begun = some c → ¬ queueCallOf qk c)
    (hc : e ≠ .clear) (hl : LikeIdealQueue cfg qk s (e :: es)) : LikeIdealQueue cfg qk s es := by
  cases e with
  | call c r =>
    cases c with
    | queue k op =>
      have hne : k ≠ qk := fun e => hmine _ rfl ⟨op, by rw [e]⟩
      unfold LikeIdealQueue at hl
      rw [if_neg hne] at hl
      exact hl
    | kv k op => exact hl
    | typed k op => exact hl
    | list k op => exact hl
  | merge b => exact hl
  | clear => exact absurd rfl hc
  | reopen => exact hl
  | crash c =>
    cases c with
    | none => exact hl
    | some c =>
      cases c with
      | queue k op =>
        have hne : k ≠ qk := fun e => hmine _ rfl ⟨op, by rw [e]⟩
        unfold LikeIdealQueue at hl
        rw [if_neg hne] at hl
        exact hl
      | kv k op => exact hl
      | typed k op => exact hl
      | list k op => exact hl

theorem tqueue_sees {cfg : Cfg} {w : TList L K V} (hv : Good w.vc) {qk : L} {es ts}
    (hsee : Sees (fun op : TQOp V => .queue (w.key qk) (op.raw w.vc)) (fun op => op.finish w.vc) (queueCallOf (w.key qk)) es ts) :
    ∀ {q : TDeque V} {n : Nat}, LikeIdealQueue cfg (w.key qk) (some ⟨encDeque w.vc q, true, n⟩) es → LikeTypedQueue (K := K) cfg w qk q n ts := by
  induction hsee with
  | nil => intros; trivial
  | @call es ts op r rest ih =>
    intro q n hl
    unfold LikeIdealQueue at hl
    rw [if_pos rfl] at hl
    obtain ⟨x, h0, hl⟩ := hl
    have hpre : qPre ⟨encDeque w.vc q, true, n⟩ (op.raw w.vc) := by cases op <;> trivial
    obtain ⟨s1, h1, rfl⟩ := h0.1 hpre
    cases r with
    | ok a =>
      obtain ⟨g1, g2, g3⟩ := h1
      obtain ⟨b, q', e1, e2, e3⟩ := tq_answer (K := K) hv g1
      rw [e1]
      refine ⟨q', e2, ih ?_⟩
      have : s1 = ⟨encDeque w.vc q', true, n + QOp.cost (op.raw w.vc)⟩ := by
        cases s1; dsimp only at g2 g3 e3; rw [g2, g3, e3]
      rw [← this]; exact hl
    | err e =>
      have : op.finish (K := K) w.vc (.err e) = .err e := by cases op <;> rfl
      rw [this]
      exact h1.1
    | panic => exact h1.elim
    | exhausted =>
      have : op.finish (K := K) w.vc (.exhausted) = .exhausted := by cases op <;> rfl
      rw [this]
      exact h1
  | @crash es ts op rest ih => intros; trivial
  | @clear es ts rest ih => intro q n hl; exact ih (q := TDeque.empty) hl
  | @skip es ts e hmine hc rest ih => intro q n hl; exact ih (queue_skip hmine hc hl)

/-- **C37**, typed queues: for every faithful serialization and every history in which the queue is only accessed through the wrapper the answers are
those of an ideal deque of typed values, up to the first call that fails or is cut off by a crash. In particular deserialization never fails. -/
theorem C37_typed_queue {cfg : Cfg} {es : List Event} {t : Tree} {w : TList L K V} {qk : L} {ts : List (TEvent (TQOp V) (TRes (TResp K V)))}
    (h : Reachable cfg es t) (hv : Good w.vc)
    (hsee : Sees (fun op : TQOp V => .queue (w.key qk) (op.raw w.vc)) (fun op => op.finish w.vc) (queueCallOf (w.key qk)) es ts) :
    LikeTypedQueue cfg w qk TDeque.empty 0 ts := by
  obtain ⟨u, h1, _⟩ := h.world
  exact tqueue_sees hv hsee (q := TDeque.empty) (specRun_queue h1).1

/-- The raw queue holds the big value. -/
def BigIs (c : Codec V) (q : Deque) (cur : Option V) : Prop :=
  match cur with
  | none => q.elems = []
  | some v => q.elems ≠ [] ∧ (q.elems.map Prod.snd).flatten = c.enc v ∧ q.range.isSome = true

theorem tbig_sees {cfg : Cfg} {w : TStore K V} (hv : Good w.vc) {k : K} {es ts}
    (hsee : Sees (fun op : TBigOp V => .queue (typedKey (w.key k)) (op.raw w.vc)) (fun op => op.finish w.vc) (queueCallOf (typedKey (w.key k))) es ts) :
    ∀ {s : QState} {cur : Option V}, LikeIdealQueue cfg (typedKey (w.key k)) (some s) es → BigIs w.vc s.dq cur → LikeTypedBig cfg w k cur ts := by
  induction hsee with
  | nil => intros; trivial
  | @call es ts op r rest ih =>
    intro s cur hl hb
    unfold LikeIdealQueue at hl
    rw [if_pos rfl] at hl
    obtain ⟨x, h0, hl⟩ := hl
    have hpre : qPre s (op.raw w.vc) := by cases op <;> trivial
    obtain ⟨s1, h1, rfl⟩ := h0.1 hpre
    have hflag : cur.isSome = true → s.dq.range.isSome = true := by
      intro hc
      cases cur with
      | none => cases hc
      | some v => exact hb.2.2
    cases op with
    | get =>
      cases r with
      | ok a =>
        obtain ⟨⟨e1, rfl⟩, _⟩ := h1
        refine Or.inr ⟨?_, ih hl (by rw [e1]; exact hb)⟩
        cases cur with
        | none => rw [if_pos (show s.dq.elems = [] from hb)]; rfl
        | some v =>
          obtain ⟨b1, b2, _⟩ := hb
          rw [if_neg b1, b2]
          exact dec_val hv (some v)
      | err e => exact absurd trivial h1.1
      | panic => exact h1.elim
      | exhausted => exact Or.inl rfl
    | set v =>
      cases r with
      | ok a =>
        obtain ⟨⟨⟨cs, e1, e2, e3⟩, rfl⟩, _⟩ := h1
        refine Or.inr (Or.inl ⟨_, rfl, hflag, ih hl ?_⟩)
        have he : s1.dq.elems = cs.mapIdx (fun i v => (Deque.empty.tailIdx + i, v)) := by rw [e1, extend_elems]; rfl
        have hm : s1.dq.elems.map Prod.snd = cs := by
          rw [he]
          apply List.ext_getElem?
          intro i
          simp only [List.getElem?_map, List.getElem?_mapIdx]
          cases cs[i]? <;> rfl
        by_cases hv0 : w.vc.enc v = []
        · rw [if_pos hv0]
          have := e3.2 hv0
          subst this
          show s1.dq.elems = []
          rw [he]; rfl
        · rw [if_neg hv0]
          refine ⟨fun h => hv0 (e3.1 ?_), by rw [hm]; exact e2, ?_⟩
          · rw [h] at hm; exact hm.symm
          · rw [e1]
            have : ∀ (q : Deque) cs, (Deque.extend q cs).range.isSome = true := by
              intro q cs
              induction cs generalizing q with
              | nil => rfl
              | cons v vs ih => exact ih _
            exact this _ _
      | err e =>
        obtain ⟨g1, g2, _⟩ := h1
        refine Or.inr (Or.inr ⟨e, rfl, g1, ih hl ?_⟩)
        rcases g2 with g | g
        · rw [g]; rfl
        · rw [g]; rfl
      | panic => exact h1.elim
      | exhausted => exact Or.inl rfl
    | remove =>
      cases r with
      | ok a =>
        obtain ⟨⟨e1, rfl⟩, _⟩ := h1
        exact Or.inr ⟨_, rfl, hflag, ih hl (by rw [e1]; rfl)⟩
      | err e => exact absurd trivial h1.1
      | panic => exact h1.elim
      | exhausted => exact Or.inl rfl
  | @crash es ts op rest ih => intros; trivial
  | @clear es ts rest ih => intro s cur hl _; exact ih (s := QState.new) hl rfl
  | @skip es ts e hmine hc rest ih => intro s cur hl hb; exact ih (queue_skip hmine hc hl) hb

/-- **C37**, typed big values: the same for `get_big`, `set_big` and `remove_big` of one key. -/
theorem C37_typed_big {cfg : Cfg} {es : List Event} {t : Tree} {w : TStore K V} {k : K} {ts : List (TEvent (TBigOp V) (TRes (TResp K V)))}
    (h : Reachable cfg es t) (hv : Good w.vc)
    (hsee : Sees (fun op : TBigOp V => .queue (typedKey (w.key k)) (op.raw w.vc)) (fun op => op.finish w.vc) (queueCallOf (typedKey (w.key k))) es ts) :
    LikeTypedBig cfg w k none ts := by
  obtain ⟨u, h1, _⟩ := h.world
  exact tbig_sees hv hsee (s := QState.new) (specRun_queue h1).1 rfl

/-! ## The hypotheses can be met -/

/-- One byte as itself. -/
def byteCodec : Codec UInt8 := ⟨fun x => [x], fun | [x] => some x | _ => none⟩

theorem byteCodec_good : Good byteCodec := fun _ => rfl

def demoStore : TStore UInt8 UInt8 := ⟨byteCodec, byteCodec, 7⟩
def demoList : TList UInt8 UInt8 UInt8 := ⟨byteCodec, byteCodec, byteCodec, 9⟩

/-- A typed store and another one with a different type id set the same key; the first one then reads its value back. -/
example : ∃ es t, Reachable runCfg es t ∧
    Sees (fun p : UInt8 × TKvOp UInt8 => .typed (demoStore.key p.1) (p.2.raw demoStore.vc)) (fun p => p.2.finish (K := UInt8) demoStore.vc) (typedCallOf demoStore.id) es
      [.call (3, .set 5) (.ok (.val none)), .call (3, .get) (.ok (.val (some 5)))] := by
  obtain ⟨t, h⟩ := checkHist_reachable (cfg := runCfg) (cs := [(.typed (demoStore.key 3) (.set [5]), .ok (.setStatus .createdNew)),
    (.typed ((⟨byteCodec, byteCodec, 8⟩ : TStore UInt8 UInt8).key 3) (.set [6]), .ok (.setStatus .createdNew)),
    (.typed (demoStore.key 3) .get, .ok (.val (some [5])))]) (by decide +kernel)
  refine ⟨_, t, h, ?_⟩
  refine Sees.call ((3, TKvOp.set 5) : UInt8 × TKvOp UInt8) (.ok (.setStatus .createdNew)) ?_
  refine Sees.skip _ ?_ nofun (Sees.call ((3, TKvOp.get) : UInt8 × TKvOp UInt8) (.ok (.val (some [5]))) Sees.nil)
  intro c hc
  cases hc
  exact C37_types_apart demoStore ⟨byteCodec, byteCodec, 8⟩ (by decide) _ _

/-- A typed list. -/
example : ∃ es t, Reachable runCfg es t ∧ NoClash runCfg (demoList.key 1) es ∧
    Sees (fun op : TLOp UInt8 UInt8 => .list (demoList.key 1) (op.raw demoList.kc demoList.vc)) (fun op => op.finish demoList.kc demoList.vc) (listCallOf (demoList.key 1)) es
      [.call (.set 3 5) (.ok (.val none)), .call (.set 4 6) (.ok (.val none)), .call (.iter false) (.ok (.items [(4, 6), (3, 5)]))] := by
  obtain ⟨t, h⟩ := checkHist_reachable (cfg := runCfg) (cs := [(.list (demoList.key 1) (.set [3] [5]), .ok (.setStatus .createdNew)),
    (.list (demoList.key 1) (.set [4] [6]), .ok (.setStatus .createdNew)),
    (.list (demoList.key 1) (.iter false), .ok (.items [([4], [6]), ([3], [5])]))]) (by decide +kernel)
  refine ⟨_, t, h, ?_, Sees.call (TLOp.set 3 5 : TLOp UInt8 UInt8) (.ok (.setStatus .createdNew)) (Sees.call (TLOp.set 4 6 : TLOp UInt8 UInt8) (.ok (.setStatus .createdNew)) (Sees.call (TLOp.iter false : TLOp UInt8 UInt8) (.ok (.items [([4], [6]), ([3], [5])])) Sees.nil))⟩
  intro e he lk' op hb _
  simp only [hist, List.map_cons, List.map_nil, List.mem_cons, List.not_mem_nil, or_false] at he
  rcases he with rfl | rfl | rfl <;> (simp only [Event.begun, Option.some.injEq, Call.list.injEq] at hb; exact hb.1.symm)

/-- A typed queue and a typed big value. -/
example : ∃ es t, Reachable runCfg es t ∧
    Sees (fun op : TQOp UInt8 => .queue (demoList.key 1) (op.raw demoList.vc)) (fun op => op.finish (K := UInt8) demoList.vc) (queueCallOf (demoList.key 1)) es
      [.call (.push .tail 5) (.ok .unit), .call (.pop .head) (.ok (.elem (some (9223372036854775808, 5))))] ∧
    Sees (fun op : TBigOp UInt8 => .queue (typedKey (demoStore.key 2)) (op.raw demoStore.vc)) (fun op => op.finish (K := UInt8) demoStore.vc)
      (queueCallOf (typedKey (demoStore.key 2))) es [.call (.set 9) (.ok (.flag false)), .call .get (.ok (.val (some 9)))] := by
  obtain ⟨t, h⟩ := checkHist_reachable (cfg := runCfg) (cs := [(.queue (demoList.key 1) (.push .tail [5]), .ok (.num 9223372036854775808)),
    (.queue (typedKey (demoStore.key 2)) (.setBig [9]), .ok (.flag false)),
    (.queue (demoList.key 1) (.pop .head), .ok (.elem (some (9223372036854775808, [5])))),
    (.queue (typedKey (demoStore.key 2)) .getBig, .ok (.val (some [9])))]) (by decide +kernel)
  have hne : demoList.key 1 ≠ typedKey (demoStore.key 2) := by decide
  refine ⟨_, t, h, ?_, ?_⟩
  · refine Sees.call (TQOp.push .tail 5 : TQOp UInt8) (.ok (.num 9223372036854775808)) (Sees.skip _ ?_ nofun
      (Sees.call (TQOp.pop .head : TQOp UInt8) (.ok (.elem (some (9223372036854775808, [5])))) (Sees.skip _ ?_ nofun Sees.nil)))
    · rintro c hc ⟨op, e⟩; cases hc; simp only [Call.queue.injEq] at e; exact hne e.1.symm
    · rintro c hc ⟨op, e⟩; cases hc; simp only [Call.queue.injEq] at e; exact hne e.1.symm
  · refine Sees.skip _ ?_ nofun (Sees.call (TBigOp.set 9 : TBigOp UInt8) (.ok (.flag false))
      (Sees.skip _ ?_ nofun (Sees.call (TBigOp.get : TBigOp UInt8) (.ok (.val (some [9]))) Sees.nil)))
    · rintro c hc ⟨op, e⟩; cases hc; simp only [Call.queue.injEq] at e; exact hne e.1
    · rintro c hc ⟨op, e⟩; cases hc; simp only [Call.queue.injEq] at e; exact hne e.1

end Candy.Props
