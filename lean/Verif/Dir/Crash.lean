import Verif.Import.Crash
import Verif.Spec.Dir

/-! # The order in which a directory stores nodes (C75)

The definitions in this file belong to proofs; they model no code.
-/

namespace Unixfs.Hamt
open Unixfs.Spec

variable {P : Node → Prop}

/-- All links of a shard in memory lead to nodes of `P`. -/
inductive In (P : Node → Prop) : Shard → Prop
  | mk {s : Shard} (hl : ∀ l, Slot.link l ∈ s.slots → P l.target) (hc : ∀ c, Slot.child c ∈ s.slots → In P c)
      (hv : ∀ v, s.val = some v → P v.target) : In P s

theorem In.link {s : Shard} (h : In P s) {l : Link} (hl : Slot.link l ∈ s.slots) : P l.target := by cases h with | mk h1 h2 h3 => exact h1 l hl
theorem In.child {s : Shard} (h : In P s) {c : Shard} (hl : Slot.child c ∈ s.slots) : In P c := by cases h with | mk h1 h2 h3 => exact h2 c hl
theorem In.val {s : Shard} (h : In P s) {v : Link} (hl : s.val = some v) : P v.target := by cases h with | mk h1 h2 h3 => exact h3 v hl

theorem In.mono {Q : Node → Prop} (hPQ : ∀ x, P x → Q x) {s : Shard} (h : In P s) : In Q s := by
  induction h with
  | mk hl hc hv ih => exact .mk (fun l h => hPQ _ (hl l h)) ih (fun v h => hPQ _ (hv v h))

/-- What a slot leads to. -/
def SlotIn (P : Node → Prop) : Slot → Prop
  | .link l => P l.target
  | .child c => In P c

theorem In.slot {s : Shard} (h : In P s) {x : Slot} (hx : x ∈ s.slots) : SlotIn P x := by
  cases x with
  | link l => exact h.link hx
  | child c => exact h.child hx

theorem In.withSlots {s : Shard} (h : In P s) (bf : Bytes) {xs : List Slot} (hx : ∀ x ∈ xs, SlotIn P x) : In P (s.withSlots bf xs) := by
  cases s
  refine .mk (fun l hl => hx _ hl) (fun c hc => hx _ hc) (fun v hv => h.val hv)

theorem In.setChild {s c : Shard} (h : In P s) (hc : In P c) (i : Nat) : In P (s.setChild c i) := by
  refine h.withSlots _ ?_
  intro x hx
  rcases List.mem_or_eq_of_mem_set hx with hx | rfl
  · exact h.slot hx
  · exact hc

theorem In.setLink {s : Shard} {l : Link} (h : In P s) (hc : P l.target) (i : Nat) : In P (s.setLink l i) := by
  refine h.withSlots _ ?_
  intro x hx
  rcases List.mem_or_eq_of_mem_set hx with hx | rfl
  · exact h.slot hx
  · exact hc

theorem In.setCidBuilder {s : Shard} (h : In P s) (b : Option Builder) : In P (s.setCidBuilder b) := by
  cases s
  exact .mk (fun l hl => h.link hl) (fun c hc => h.child hc) (fun v hv => h.val hv)

theorem In.withVal {s : Shard} (h : In P s) {v : Link} (hv : P v.target) : In P (s.withVal v) := by
  cases s
  refine .mk (fun l hl => h.link hl) (fun c hc => h.child hc) (fun v hv' => ?_)
  simp only [Shard.withVal, Shard.val, Option.some.injEq] at hv'
  subst hv'; exact hv

theorem makeShard_in {n : Int} {k : Bytes} {v : Option Link} {s : Shard} (h : makeShard n k v = .ok s) (hv : ∀ l, v = some l → P l.target) : In P s := by
  unfold makeShard at h
  split at h
  · cases h
  split at h
  · cases h
  split at h
  · cases h
  injection h with h
  subst h
  exact .mk (fun l hl => by simp [Shard.slots] at hl) (fun c hc => by simp [Shard.slots] at hc) (fun v hv' => hv v hv')

theorem load_in {n : Node} {s : Shard} (h : newHamtFromDag n = .ok s) (hn : ∀ l ∈ n.links, P l.target) : In P s := by
  unfold newHamtFromDag at h
  split at h
  · split at h
    · cases h
    split at h
    · cases h
    split at h
    · cases h
    split at h
    · cases h
    cases h
    refine .mk (fun l hl => ?_) (fun c hc => ?_) (fun v hv => by simp [Shard.val] at hv)
    · simp only [Shard.slots, List.mem_map, Slot.link.injEq] at hl
      obtain ⟨a, ha, rfl⟩ := hl
      exact hn _ ha
    · simp [Shard.slots] at hc
  · cases h

theorem rename_target (l : Link) (n : Bytes) : (Link.rename l n).target = l.target := by cases l; rfl

theorem insert_in {s s' : Shard} {key : Bytes} {lnk : Option Link} {idx : Nat} (h : s.insert key lnk idx = .ok s') (hs : In P s)
    (hl : ∀ l, lnk = some l → P l.target) : In P s' := by
  unfold Shard.insert at h
  split at h
  · cases h
  · next l =>
    split at h
    · cases h
    · next hm =>
      simp only at h
      split at h
      · cases h
      · cases h
        refine hs.withSlots _ ?_
        intro x hx
        simp only [List.mem_append, List.mem_cons] at hx
        rcases hx with hx | rfl | hx
        · exact hs.slot (List.mem_of_mem_take hx)
        · exact makeShard_in hm (fun l' hl' => by cases hl'; rw [rename_target]; exact hl l rfl)
        · exact hs.slot (List.mem_of_mem_drop hx)

theorem rm_in {s s' : Shard} {idx : Nat} (h : s.rm idx = .ok s') (hs : In P s) : In P s' := by
  unfold Shard.rm at h
  simp only at h
  split at h
  · cases h
  · cases h
    exact hs.withSlots _ (fun x hx => hs.slot (List.mem_of_mem_eraseIdx hx))

theorem get_in (hP : Complete P) {net : Net} {s c s' : Shard} {i t t' : Nat} (h : s.get net i t = (.ok (c, s'), t')) (hs : In P s) : In P c ∧ In P s' := by
  unfold Shard.get at h
  split at h
  · cases h
  · next hx => cases h; exact ⟨hs.child (List.mem_of_getElem? hx), hs⟩
  · next l hx =>
    have hl := hs.link (List.mem_of_getElem? hx)
    split at h
    · cases h
    · split at h
      · split at h
        · cases h
        · next hload =>
          cases h
          have := load_in hload (fun l' hl' => hP _ _ hl (.step hl' (.refl _)))
          exact ⟨this, hs.setChild this i⟩
      · cases h
    · split at h
      · cases h
      · next hm =>
        cases h
        have : In P _ := makeShard_in hm (fun l' hl' => by cases hl'; exact hl)
        exact ⟨this, hs.setChild this i⟩

theorem collapse_in {s child : Shard} {idx i : Nat} {old : Option Link} (hs : In P s) (hc : In P child) : In P (s.collapse idx i child old).2 := by
  unfold Shard.collapse
  split
  · split
    · exact hs
    · next h => exact rm_in h hs
  · next sc h =>
    dsimp only
    split
    · exact hs.setChild (hc.child (by rw [h]; simp)) i
    · exact hs
  · next l h =>
    split
    · exact hs
    · exact hs.setLink (hc.link (by rw [h]; simp)) i
    · exact hs
  · exact hs

theorem swapValue_in (hP : Complete P) (H : Hash) (net : Net) : ∀ (f : Nat) (s : Shard) (consumed : Nat) (key : Bytes) (value : Option Link) (t : Nat),
    In P s → (∀ l, value = some l → P l.target) → In P (s.swapValue H net f consumed key value t).2.1
  | 0, s, _, _, _, t, hs, _ => hs
  | f + 1, s, consumed, key, value, t, hs, hv => by
    unfold Shard.swapValue
    split
    · exact hs
    · next idx consumed' _ =>
      split
      · split
        · exact hs
        · next h => exact insert_in h hs hv
      · simp only
        split
        · exact hs
        · next child s1 t1 hg =>
          obtain ⟨hc, h1⟩ := get_in hP hg hs
          split
          · split
            · split
              · split
                · exact h1
                · next h => exact rm_in h h1
              · next v => exact h1.setChild (hc.withVal (hv v rfl)) _
            · split
              · exact h1
              · next v =>
                split
                · exact h1
                · next c0 hn =>
                  have h0 : In P c0 := makeShard_in hn (by simp)
                  split
                  · exact h1
                  · next c1 t2 hw1 =>
                    have i1 : In P c1 := by
                      have := swapValue_in hP H net f _ consumed' key (some v) t1 (h0.setCidBuilder s1.builder) hv
                      rw [hw1] at this; exact this
                    split
                    · exact h1
                    · next c2 t3 hw2 =>
                      have i2 : In P c2 := by
                        have := swapValue_in hP H net f _ consumed' child.key child.val t2 i1 (fun l hl => hc.val hl)
                        rw [hw2] at this; exact this
                      exact h1.setChild i2 _
          · split
            · next hw =>
              have := swapValue_in hP H net f child consumed' key value t1 hc hv
              rw [hw] at this
              exact h1.setChild this _
            · next hw =>
              have := swapValue_in hP H net f child consumed' key value t1 hc hv
              rw [hw] at this
              split
              · exact h1.setChild this _
              · exact collapse_in (h1.setChild this _) this

theorem getValue_in (hP : Complete P) (H : Hash) (net : Net) : ∀ (f : Nat) (s : Shard) (consumed : Nat) (key : Bytes) (t : Nat),
    In P s → In P (s.getValue H net f consumed key t).2.1
  | 0, s, _, _, t, hs => hs
  | f + 1, s, consumed, key, t, hs => by
    unfold Shard.getValue
    split
    · exact hs
    split
    · exact hs
    simp only
    split
    · exact hs
    · next hg =>
      obtain ⟨hc, h1⟩ := get_in hP hg hs
      split
      · split <;> exact h1
      · exact h1.setChild (getValue_in hP H net f _ _ _ _ hc) _

/-- The state of a sequential walk. -/
def OutIn (P : Node → Prop) (st : EachSt) : Prop := ∀ l ∈ st.out, P l.target

theorem eachLoop_in (hP : Complete P) {net : Net} {step} (hstep : ∀ c st, In P c → OutIn P st → In P (step c st).2.1 ∧ OutIn P (step c st).2.2) :
    ∀ (is : List Nat) (s : Shard) (st : EachSt), In P s → OutIn P st → In P (eachLoop net step is s st).2.1 ∧ OutIn P (eachLoop net step is s st).2.2
  | [], s, st, hs, ho => ⟨hs, ho⟩
  | i :: is, s, st, hs, ho => by
    unfold eachLoop
    split
    · exact ⟨hs, ho⟩
    · next c s1 t1 hg =>
      obtain ⟨hc, h1⟩ := get_in hP hg hs
      have := hstep c { st with t := t1 } hc ho
      split
      · next h => rw [h] at this; exact ⟨h1.setChild this.1 i, this.2⟩
      · next h => rw [h] at this; exact eachLoop_in hP hstep is _ _ (h1.setChild this.1 i) this.2

theorem forEachF_in (hP : Complete P) (net : Net) (cb : Nat → Bool) : ∀ (f : Nat) (s : Shard) (st : EachSt), In P s → OutIn P st →
    In P (forEachF net cb f s st).2.1 ∧ OutIn P (forEachF net cb f s st).2.2
  | 0, s, st, hs, ho => ⟨hs, ho⟩
  | f + 1, s, st, hs, ho => by
    unfold forEachF
    refine eachLoop_in hP ?_ _ _ _ hs ho
    intro c st hc ho
    dsimp only
    split
    · next hv =>
      have : P (Link.rename (c.val.getD (.mk [] 0 default)) c.key).target := by
        rw [rename_target]
        unfold Shard.isValueNode at hv
        cases h : c.val with
        | none => simp [h] at hv
        | some v => exact hc.val h
      refine ⟨hc.withVal this, ?_⟩
      intro l hl
      simp only [List.mem_append, List.mem_singleton] at hl
      rcases hl with hl | rfl
      · exact ho l hl
      · exact this
    · exact forEachF_in hP net cb f c st hc ho

/-! ### Serialisation -/

variable {S : Node → Prop} {J : List Node}

/-- There: stored since the store held `J`, or there before. -/
def Had (S : Node → Prop) (J st : List Node) (x : Node) : Prop := (∃ st1, st = st1 ++ J ∧ x ∈ st1) ∨ S x

/-- What was stored after `J` (latest first) is in order. -/
def StOK (S : Node → Prop) (J st : List Node) : Prop := ∃ st1, st = st1 ++ J ∧ ChildrenFirst S st1.reverse

theorem Had.mem {st : List Node} {x : Node} (h : Had S J st x) : x ∈ st ∨ S x := by
  rcases h with ⟨st1, rfl, h⟩ | h
  · exact .inl (by simp [h])
  · exact .inr h

theorem StOK.head {st : List Node} (h : StOK S J st) (n : Node) : Had S J (n :: st) n := by
  obtain ⟨st1, rfl, _⟩ := h
  exact .inl ⟨n :: st1, rfl, by simp⟩

theorem StOK.cons {st : List Node} {n : Node} (h : StOK S J st) (hn : ∀ l ∈ n.links, Had S J st l.target) : StOK S J (n :: st) := by
  obtain ⟨st1, rfl, h⟩ := h
  refine ⟨n :: st1, rfl, ?_⟩
  rw [List.reverse_cons]
  refine ChildrenFirst.snoc h (fun l hl => (hn l hl).imp ?_ id)
  rintro ⟨st2, h1, h2⟩
  rw [List.append_cancel_right h1]; simp [h2]

theorem StOK.complete (hS : Complete S) {st : List Node} (h : StOK S J st) : Complete (Had S J st) := by
  obtain ⟨st1, rfl, h⟩ := h
  intro x y hx hr
  induction hr with
  | refl => exact hx
  | step hl _ ih =>
    refine ih ?_
    have := ChildrenFirst.has h hS (n := _) (hx.imp (by rintro ⟨st2, h1, h2⟩; rw [List.append_cancel_right h1]; simp [h2]) id) _ hl
    exact this.imp (fun h => ⟨st1, rfl, by simpa using h⟩) id

theorem Had.mono {st st' : List Node} (h : st <:+ st') : ∀ x, Had S J st x → Had S J st' x := by
  obtain ⟨p, rfl⟩ := h
  rintro x (⟨st1, rfl, h⟩ | h)
  · exact .inl ⟨p ++ st1, by simp, by simp [h]⟩
  · exact .inr h

mutual
theorem toNode_ok (ref : Nat → Bool) : ∀ (s : Shard) (st : List Node), StOK S J st → In (Had S J st) s →
    st <:+ (Shard.toNode ref s st).2 ∧ StOK S J (Shard.toNode ref s st).2 ∧ ∀ n, (Shard.toNode ref s st).1 = .ok n →
      n ∈ (Shard.toNode ref s st).2 ∧ ∀ l ∈ n.links, Had S J (Shard.toNode ref s st).2 l.target
  | .mk size bf slots b k v, st, hst, hs => by
    have hl := linksOf_ok ref size slots ((List.range size).filter (fun i => bfBit bf i)) st hst (fun x hx => hs.slot hx)
    unfold Shard.toNode
    split
    · next h => rw [h] at hl; exact ⟨hl.1, hl.2.1, by simp⟩
    · next ls st' h =>
      rw [h] at hl
      obtain ⟨h1, h2, h3⟩ := hl
      split
      · exact ⟨h1, h2, by simp⟩
      · split
        · exact ⟨h1, h2, by simp⟩
        · refine ⟨h1.trans (List.suffix_cons _ _), h2.cons (h3 _ rfl), ?_⟩
          intro n hn
          cases hn
          exact ⟨by simp, fun l hl => Had.mono (List.suffix_cons _ _) _ (h3 _ rfl l hl)⟩
theorem linksOf_ok (ref : Nat → Bool) (size : Nat) : ∀ (slots : List Slot) (is : List Nat) (st : List Node), StOK S J st → (∀ x ∈ slots, SlotIn (Had S J st) x) →
    st <:+ (linksOf ref size slots is st).2 ∧ StOK S J (linksOf ref size slots is st).2 ∧
      ∀ ls, (linksOf ref size slots is st).1 = .ok ls → ∀ l ∈ ls, Had S J (linksOf ref size slots is st).2 l.target
  | [], [], st, hst, hs => ⟨by simp [linksOf], by simpa [linksOf] using hst, by simp [linksOf]⟩
  | x :: xs, [], st, hst, hs => ⟨by simp [linksOf], by simpa [linksOf] using hst, by simp [linksOf]⟩
  | [], i :: is, st, hst, hs => ⟨by simp [linksOf], by simpa [linksOf] using hst, by simp [linksOf]⟩
  | .child s :: ss, i :: is, st, hst, hs => by
    have hin : In (Had S J st) s := hs (.child s) (by simp)
    have hrest : ∀ x ∈ ss, SlotIn (Had S J st) x := fun x hx => hs x (by simp [hx])
    have hT := toNode_ok ref s st hst hin
    -- the link to the child
    have hlink : ∀ p : Except Err Link × List Node,
        (if s.isValueNode then (match s.val with | some l => (.ok l, st) | none => (.error .panic, st))
           else match Shard.toNode ref s st with
            | (.error e, st') => (.error e, st')
            | (.ok nd, st') =>
              if ref st'.length then (.error .addFailed, st') else (.ok (makeLink [] nd), nd :: st') : Except Err Link × List Node) = p →
        st <:+ p.2 ∧ StOK S J p.2 ∧ ∀ l, p.1 = .ok l → Had S J p.2 l.target := by
      intro p hp
      split at hp
      · split at hp
        · next l hv =>
          subst hp
          exact ⟨List.suffix_rfl, hst, fun l' hl' => by cases hl'; exact hin.val hv⟩
        · subst hp; exact ⟨List.suffix_rfl, hst, by simp⟩
      · split at hp
        · next h => rw [h] at hT; subst hp; exact ⟨hT.1, hT.2.1, by simp⟩
        · next nd st' h =>
          rw [h] at hT
          obtain ⟨h1, h2, h3⟩ := hT
          have h3 := h3 nd rfl
          split at hp
          · subst hp; exact ⟨h1, h2, by simp⟩
          · subst hp
            refine ⟨h1.trans (List.suffix_cons _ _), h2.cons ?_, ?_⟩
            · exact h3.2
            · intro l hl
              cases hl
              exact h2.head nd
    unfold linksOf
    split
    · next h => have := hlink _ h; exact ⟨this.1, this.2.1, by simp⟩
    · next l st' h =>
      obtain ⟨g1, g2, g3⟩ := hlink _ h
      have hR := linksOf_ok ref size ss is st' g2 (fun x hx => by
        have := hrest x hx
        cases x with
        | link l => exact Had.mono g1 _ this
        | child c => exact In.mono (Had.mono g1) this)
      split
      · next h' => rw [h'] at hR; exact ⟨g1.trans hR.1, hR.2.1, by simp⟩
      · next h' =>
        rw [h'] at hR
        refine ⟨g1.trans hR.1, hR.2.1, ?_⟩
        intro ls hls l' hl'
        cases hls
        rcases List.mem_cons.mp hl' with rfl | hl'
        · rw [rename_target]; exact Had.mono hR.1 _ (g3 _ rfl)
        · exact hR.2.2 _ rfl _ hl'
  | .link l :: ss, i :: is, st, hst, hs => by
    have hl : Had S J st l.target := hs (.link l) (by simp)
    have hrest : ∀ x ∈ ss, SlotIn (Had S J st) x := fun x hx => hs x (by simp [hx])
    unfold linksOf
    split
    · exact ⟨List.suffix_rfl, hst, by simp⟩
    have hR := linksOf_ok ref size ss is st hst hrest
    split
    · next h' => rw [h'] at hR; exact ⟨hR.1, hR.2.1, by simp⟩
    · next h' =>
      rw [h'] at hR
      refine ⟨hR.1, hR.2.1, ?_⟩
      intro ls hls l' hl'
      cases hls
      rcases List.mem_cons.mp hl' with rfl | hl'
      · rw [rename_target]; exact Had.mono hR.1 _ hl
      · exact hR.2.2 _ rfl _ hl'
end

theorem setLinkOp_in (hP : Complete P) (H : Hash) (net : Net) {s : Shard} {name : Bytes} {l : Link} {t : Nat} (hs : In P s) (hl : P l.target) :
    In P (s.setLinkOp H net name l t).2.1 := by
  have := swapValue_in hP H net (Shard.fuel H name) s 0 name (some (Link.rename l (linkNamePrefix s.size 0 ++ name))) t hs
    (fun l' hl' => by cases hl'; rw [rename_target]; exact hl)
  unfold Shard.setLinkOp
  split <;> (next h => rw [h] at this; exact this)

theorem take_in (hP : Complete P) (H : Hash) (net : Net) {s : Shard} {name : Bytes} {t : Nat} (hs : In P s) : In P (s.take H net name t).2.1 :=
  swapValue_in hP H net _ s 0 name none t hs (by simp)

theorem find_in (hP : Complete P) (H : Hash) (net : Net) {s : Shard} {name : Bytes} {t : Nat} (hs : In P s) : In P (s.find H net name t).2.1 :=
  getValue_in hP H net _ s 0 name t hs

theorem swap_ok (hS : Complete S) (H : Hash) (net : Net) (ref : Nat → Bool) {s : Shard} {name : Bytes} {nd : Node} {t : Nat} {st : List Node}
    (hst : StOK S J st) (hs : In (Had S J st) s) (hnd : S nd) :
    st <:+ (s.swap H net ref name nd t st).2.2.2 ∧ StOK S J (s.swap H net ref name nd t st).2.2.2 ∧
      In (Had S J (s.swap H net ref name nd t st).2.2.2) (s.swap H net ref name nd t st).2.1 := by
  unfold Shard.swap
  split
  · exact ⟨List.suffix_rfl, hst, hs⟩
  · have h1 : StOK S J (nd :: st) := hst.cons (fun l hl => .inr (hS _ _ hnd (.step hl (.refl _))))
    have h2 := swapValue_in (h1.complete hS) H net (Shard.fuel H name) s 0 name (some (makeLink (linkNamePrefix s.size 0 ++ name) nd)) t
      (hs.mono (Had.mono (List.suffix_cons nd st))) (fun l hl => by cases hl; exact hst.head nd)
    exact ⟨List.suffix_cons _ _, h1, h2⟩

end Unixfs.Hamt

namespace Unixfs.Dir
open Unixfs.Spec Unixfs.Hamt

variable {P S : Node → Prop} {J : List Node}

/-- All links of a directory in memory lead to nodes of `P`. -/
def DIn (P : Node → Prop) : Dir → Prop
  | .basic b => ∀ l ∈ b.links, P l.target
  | .hamt h => In P h.shard

theorem DIn.mono {Q : Node → Prop} (hPQ : ∀ x, P x → Q x) {d : Dir} (h : DIn P d) : DIn Q d := by
  cases d with
  | basic b => exact fun l hl => hPQ _ (h l hl)
  | hamt h' => exact In.mono hPQ h

/-- The invariant of a client; the store held `J` at first. -/
structure DSafe (S : Node → Prop) (J : List Node) (c : Cfg) : Prop where
  first : StOK S J c.st
  dir : DIn (Had S J c.st) c.dir

theorem computeEstimatedSize_links (d : Basic) : d.computeEstimatedSize.links = d.links := by
  unfold Basic.computeEstimatedSize
  have : ∀ (ls : List Link) (d : Basic), (ls.foldl (fun d l => d.addToEstimatedSize l.name l.target) d).links = d.links := by
    intro ls
    induction ls with
    | nil => intro d; rfl
    | cons l ls ih => intro d; rw [List.foldl_cons, ih]; rfl
  exact this _ _

theorem removeChild_links (d : Basic) (name : Bytes) : ∀ l ∈ (d.removeChild name).2.links, l ∈ d.links := by
  intro l hl
  unfold Basic.removeChild at hl
  split at hl
  · exact hl
  · simp only [List.mem_filter] at hl
    unfold Basic.removeFromEstimatedSize at hl
    simp only at hl
    split at hl
    · rw [computeEstimatedSize_links] at hl; exact hl.1
    · exact hl.1

theorem addLinkChild_links (d : Basic) (name : Bytes) (link : Link) : ∀ l ∈ (d.addLinkChild name link).2.links, l ∈ d.links ∨ l.target = link.target := by
  intro l hl
  unfold Basic.addLinkChild at hl
  have hr := removeChild_links d name
  simp only at hl
  split at hl
  · split at hl
    · exact .inl (hr l hl)
    · simp only [Basic.addToEstimatedSize, List.mem_append, List.mem_singleton] at hl
      rcases hl with hl | rfl
      · exact .inl (hr l hl)
      · exact .inr rfl
  · simp only [Basic.addToEstimatedSize, List.mem_append, List.mem_singleton] at hl
    rcases hl with hl | rfl
    · exact .inl (hr l hl)
    · exact .inr rfl

theorem setLinks_in (hP : Complete P) (env : Env) : ∀ (ls : List Link) (s s' : Shard) (t t' : Nat), Basic.setLinks env ls s t = (.ok s', t') → In P s →
    (∀ l ∈ ls, P l.target) → In P s'
  | [], s, s', t, t', h, hs, _ => by cases h; exact hs
  | l :: ls, s, s', t, t', h, hs, hl => by
    unfold Basic.setLinks at h
    have := setLinkOp_in hP env.H env.net (name := l.name) (t := t) hs (hl l (by simp))
    split at h
    · cases h
    · next h1 =>
      rw [h1] at this
      exact setLinks_in hP env ls _ _ _ _ h this (fun l hl' => hl l (by simp [hl']))

theorem switchToSharding_in (hP : Complete P) (env : Env) {d : Basic} {t t' : Nat} {h : HamtDir} (he : d.switchToSharding env t = (.ok h, t'))
    (hd : ∀ l ∈ d.links, P l.target) : In P h.shard := by
  unfold Basic.switchToSharding at he
  split at he
  · cases he
  · next s hn =>
    have h0 : In P s := makeShard_in hn (by simp)
    split at he
    · cases he
    · next h1 =>
      cases he
      exact setLinks_in hP env _ _ _ _ _ h1 (h0.setCidBuilder _) hd

theorem addLinks_in : ∀ (ls : List Link) (b b' : Basic), HamtDir.addLinks ls b = .ok b' → (∀ l ∈ b.links, P l.target) → (∀ l ∈ ls, P l.target) → ∀ l ∈ b'.links, P l.target
  | [], b, b', h, hb, _ => by cases h; exact hb
  | l :: ls, b, b', h, hb, hl => by
    unfold HamtDir.addLinks at h
    split at h
    · cases h
    · next b1 h1 =>
      refine addLinks_in ls b1 b' h ?_ (fun l hl' => hl l (by simp [hl']))
      intro x hx
      have := addLinkChild_links b l.name l x (by rw [h1]; exact hx)
      rcases this with h | h
      · exact hb x h
      · rw [h]; exact hl l (by simp)

theorem shard_forEach_in (hP : Complete P) (net : Net) (cb : Nat → Bool) {s : Shard} {t : Nat} (hs : In P s) :
    In P (s.forEachLink net cb t).2.1 ∧ OutIn P (s.forEachLink net cb t).2.2 := by
  unfold Shard.forEachLink
  exact forEachF_in hP net cb _ s _ hs (by intro l hl; simp at hl)

theorem switchToBasic_in (hP : Complete P) (env : Env) {d : HamtDir} {t : Nat} (hd : In P d.shard) :
    In P (d.switchToBasic env t).2.1.shard ∧ ∀ b, (d.switchToBasic env t).1 = .ok b → ∀ l ∈ b.links, P l.target := by
  have h := shard_forEach_in hP env.net (fun _ => false) (t := t) hd
  unfold HamtDir.switchToBasic
  split
  · next h' => rw [h'] at h; exact ⟨h.1, by simp⟩
  · next h' =>
    rw [h'] at h
    refine ⟨h.1, fun b hb => addLinks_in _ _ _ hb ?_ h.2⟩
    intro l hl
    simp [Basic.setCidBuilder, Basic.empty, Basic.ofNode, computeEstimatedSize_links] at hl

theorem needs_in (hP : Complete P) (env : Env) {d : HamtDir} {thr : Int} {name : Bytes} {nd : Option Node} {t k : Nat} (hd : In P d.shard) :
    In P (d.needsToSwitchToBasicDir env thr name nd t k).2.1.shard := by
  have hf := find_in hP env.H env.net (name := name) (t := t) hd
  have hdec : ∀ (d : HamtDir) op t, (HamtDir.needsToSwitchToBasicDir.decide env thr k d op t).2.1 = d := by
    intro d op t
    unfold HamtDir.needsToSwitchToBasicDir.decide
    split <;> rfl
  unfold HamtDir.needsToSwitchToBasicDir
  split
  · exact hd
  · simp only
    split
    · exact hf
    · rw [hdec]; exact hf
    · rw [hdec]; exact hf
    · exact hf

theorem hamt_add_ok (hS : Complete S) (env : Env) {d : HamtDir} {name : Bytes} {nd : Node} {t : Nat} {st : List Node} (hst : StOK S J st)
    (hd : In (Had S J st) d.shard) (hnd : S nd) :
    st <:+ (d.addChild env name nd t st).2.2.2 ∧ StOK S J (d.addChild env name nd t st).2.2.2 ∧
      In (Had S J (d.addChild env name nd t st).2.2.2) (d.addChild env name nd t st).2.1.shard := by
  have := swap_ok hS env.H env.net env.ref (name := name) (t := t) hst hd hnd
  unfold HamtDir.addChild
  split <;> (next h => rw [h] at this; exact this)

theorem addChild_safe (hS : Complete S) (env : Env) {c : Cfg} {name : Bytes} {nd : Node} (hc : DSafe S J c) (hnd : S nd) : DSafe S J (addChild env c name nd).2 := by
  obtain ⟨hst, hd⟩ := hc
  have hP := hst.complete hS
  have hb : ∀ b : Basic, (∀ l ∈ b.links, Had S J c.st l.target) → ∀ l ∈ (b.addChild name nd).2.links, Had S J c.st l.target := by
    intro b hb l hl
    rcases addLinkChild_links b name (makeLink [] nd) l hl with h | h
    · exact hb l h
    · rw [h]; exact .inr hnd
  unfold addChild
  split
  · next h he =>
    rw [he] at hd
    have h1 := needs_in hP env (thr := c.thr) (name := name) (nd := some nd) (t := c.t) (k := c.k) hd
    split
    · next h' => rw [h'] at h1; exact ⟨hst, h1⟩
    · next t k h' =>
      rw [h'] at h1
      have h2 := switchToBasic_in hP env (t := t) h1
      split
      · next h'' => rw [h''] at h2; exact ⟨hst, h2.1⟩
      · next b _ _ h'' =>
        rw [h''] at h2
        have h3 := hb b (h2.2 b rfl)
        split
        · exact ⟨hst, h2.1⟩
        · next h3' => rw [h3'] at h3; exact ⟨hst, h3⟩
    · next t k h' =>
      rw [h'] at h1
      have h2 := hamt_add_ok hS env (name := name) (t := t) hst h1 hnd
      exact ⟨h2.2.1, h2.2.2⟩
  · next b he =>
    rw [he] at hd
    split
    · exact ⟨hst, hb b hd⟩
    · split
      · exact ⟨hst, by rw [he]; exact hd⟩
      · next h t h' =>
        have h1 := switchToSharding_in hP env h' hd
        have h2 := hamt_add_ok hS env (name := name) (t := t) hst h1 hnd
        split
        · next h3 => rw [h3] at h2; exact ⟨h2.2.1, by rw [he]; exact DIn.mono (d := .basic b) (Had.mono h2.1) hd⟩
        · next h3 => rw [h3] at h2; exact ⟨h2.2.1, h2.2.2⟩

theorem removeChild_safe (hS : Complete S) (env : Env) {c : Cfg} {name : Bytes} (hc : DSafe S J c) : DSafe S J (removeChild env c name).2 := by
  obtain ⟨hst, hd⟩ := hc
  have hP := hst.complete hS
  unfold removeChild
  split
  · next b he =>
    rw [he] at hd
    exact ⟨hst, fun l hl => hd l (removeChild_links b name l hl)⟩
  · next h he =>
    rw [he] at hd
    have h1 := needs_in hP env (thr := c.thr) (name := name) (nd := none) (t := c.t) (k := c.k) hd
    split
    · next h' => rw [h'] at h1; exact ⟨hst, h1⟩
    · next h' t k h2 =>
      rw [h2] at h1
      have h3 := take_in hP env.H env.net (name := name) (t := t) h1
      refine ⟨hst, ?_⟩
      show In _ _
      simp only [HamtDir.removeChild]
      split <;> (next h => rw [h] at h3; exact h3)
    · next t k h' =>
      rw [h'] at h1
      have h2 := switchToBasic_in hP env (t := t) h1
      split
      · next h'' => rw [h''] at h2; exact ⟨hst, h2.1⟩
      · next b _ _ h'' =>
        rw [h''] at h2
        split
        · exact ⟨hst, h2.1⟩
        · next h3 => exact ⟨hst, fun l hl => h2.2 b rfl l (removeChild_links b name l (by rw [h3]; exact hl))⟩

theorem getNode_safe (hS : Complete S) (env : Env) {c : Cfg} (hc : DSafe S J c) :
    DSafe S J (getNode env c).2 ∧ ∀ n, (getNode env c).1 = .ok n → ∀ l ∈ n.links, Had S J (getNode env c).2.st l.target := by
  obtain ⟨hst, hd⟩ := hc
  unfold getNode
  split
  · next b he =>
    rw [he] at hd
    refine ⟨⟨hst, by rw [he]; exact hd⟩, ?_⟩
    intro n hn l hl
    cases hn
    exact hd l hl
  · next h he =>
    rw [he] at hd
    have := toNode_ok env.ref h.shard c.st hst hd
    exact ⟨⟨this.2.1, by show DIn _ c.dir; rw [he]; exact DIn.mono (d := .hamt h) (Had.mono this.1) hd⟩, fun n hn => (this.2.2 n hn).2⟩

theorem load_dir_in {nd : Node} {d : Dir} (h : newDirectoryFromNode nd = .ok d) (hn : ∀ l ∈ nd.links, P l.target) : DIn P d := by
  unfold newDirectoryFromNode at h
  split at h
  · split at h
    · cases h
    · split at h
      · cases h
        intro l hl
        rw [Basic.ofNode, computeEstimatedSize_links] at hl
        exact hn l hl
      · split at h
        · split at h
          · cases h
          · next hl => cases h; exact load_in hl hn
        · cases h
  · cases h

theorem exec_safe (hS : Complete S) (env : Env) {op : DOp} {c : Cfg} (hc : DSafe S J c) (hop : ∀ name nd, op = .add name nd → S nd) : DSafe S J (exec env op c).2 := by
  have hP := hc.first.complete hS
  cases op with
  | add name nd =>
    have := addChild_safe hS env (name := name) hc (hop name nd rfl)
    simp only [exec]
    split <;> (next h => rw [h] at this; exact this)
  | remove name =>
    have := removeChild_safe hS env (name := name) hc
    simp only [exec]
    split <;> (next h => rw [h] at this; exact this)
  | find name =>
    have : DSafe S J (find env c name).2 := by
      obtain ⟨hst, hd⟩ := hc
      unfold find
      split
      · next he => exact ⟨hst, hd⟩
      · next h he =>
        rw [he] at hd
        have hf := find_in hP env.H env.net (name := name) (t := c.t) hd
        refine ⟨hst, ?_⟩
        show In _ _
        simp only [HamtDir.find]
        split <;> (next h => rw [h] at hf; exact hf)
    simp only [exec]
    split <;> (next h => rw [h] at this; exact this)
  | links =>
    have : DSafe S J (links env c).2.2 := by
      obtain ⟨hst, hd⟩ := hc
      unfold links
      split
      · exact ⟨hst, hd⟩
      · exact ⟨hst, hd⟩
    exact this
  | forEach cb =>
    have : DSafe S J (forEachLink env c cb).2.2 := by
      obtain ⟨hst, hd⟩ := hc
      unfold forEachLink
      split
      · exact ⟨hst, hd⟩
      · next h he =>
        rw [he] at hd
        exact ⟨hst, (shard_forEach_in hP env.net cb (t := c.t) hd).1⟩
    exact this
  | getNode =>
    have := (getNode_safe hS env hc).1
    simp only [exec]
    split <;> (next h => rw [h] at this; exact this)
  | reload =>
    have := getNode_safe hS env hc
    simp only [exec]
    split
    · next h => rw [h] at this; exact this.1
    · next nd c' h =>
      rw [h] at this
      split
      · next hl => exact ⟨this.1.first, load_dir_in hl (this.2 nd rfl)⟩
      · exact this.1
  | setCidBuilder b =>
    obtain ⟨hst, hd⟩ := hc
    simp only [exec, setCidBuilder]
    split
    · next he => rw [he] at hd; exact ⟨hst, hd⟩
    · next he => rw [he] at hd; exact ⟨hst, In.setCidBuilder hd b⟩
  | setThreshold n => exact ⟨hc.first, hc.dir⟩

theorem execAll_safe (hS : Complete S) (env : Env) : ∀ (ops : List DOp) (c : Cfg), DSafe S J c → (∀ name nd, DOp.add name nd ∈ ops → S nd) → DSafe S J (execAll env ops c)
  | [], c, hc, _ => hc
  | op :: ops, c, hc, hop =>
    execAll_safe hS env ops _ (exec_safe hS env hc (fun name nd h => hop name nd (by simp [h]))) (fun name nd h => hop name nd (by simp [h]))

end Unixfs.Dir
