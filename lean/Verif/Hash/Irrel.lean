import Verif.Hash.Db
/-
The update mode and the capacity of the free block pool do not matter for the layout of the file; a file of the in-place
mode is also a file of the appending mode.
-/
namespace Verif.Hash

variable {e : Env} {c : Cfg}

/-- Another update mode and capacity. -/
def Cfg.re (c : Cfg) (ip : Bool) (cap : Nat) : Cfg := { c with inPlace := ip, fbpCap := cap }

variable {ip : Bool} {cap : Nat}

@[simp] theorem re_size (r : Rec) : r.size (c.re ip cap) = r.size c := rfl

@[simp] theorem re_recordBase : recordBase (c.re ip cap) = recordBase c := rfl

@[simp] theorem re_totalSize (rs : List Rec) : totalSize (c.re ip cap) rs = totalSize c rs := by
  induction rs with
  | nil => rfl
  | cons r rs ih => simp [totalSize, ih]

@[simp] theorem re_recAt (b : Nat) (rs : List Rec) (o : Nat) : recAt (c.re ip cap) b rs o = recAt c b rs o := by
  induction rs generalizing b with
  | nil => rfl
  | cons r rs ih => simp [recAt, ih]

@[simp] theorem re_end (L : Lay) : L.end_ (c.re ip cap) = L.end_ c := by simp [Lay.end_]

@[simp] theorem re_path (rs : List Rec) (o : Nat) (p) : Path (c.re ip cap) rs o p ↔ Path c rs o p := by
  induction p generalizing o with
  | nil => rfl
  | cons x p ih => simp only [Path, re_recordBase, re_recAt, ih]

@[simp] theorem re_live (rs : List Rec) (o : Nat) : live (c.re ip cap) rs o = live c rs o := by simp [live]

theorem re_base {L : Lay} (h : Base c L) : Base (c.re ip cap) L :=
  ⟨h.nb, fun r hr => ⟨⟨⟨(h.recs r hr).1.align, (h.recs r hr).1.small, (h.recs r hr).1.key, (h.recs r hr).1.child⟩, (h.recs r hr).1.kv⟩,
    by rw [re_end]; exact (h.recs r hr).2⟩, fun v hv => by rw [re_end]; exact h.bkt v hv⟩

theorem re_inPlace {L : Lay} {pool : List FB} (h : InPlace e c L pool) : InPlace e (c.re ip cap) L pool where
  base := re_base h.base
  noRemove := h.noRemove
  uniq := by simpa [Uniq] using h.uniq
  chain := by
    intro i hi
    obtain ⟨p, hp⟩ := h.chain i hi
    refine ⟨p, (re_path _ _ _).2 hp.path, hp.nodup, hp.mem, ?_⟩
    intro o k v h1 h2
    rw [re_live] at h1
    exact hp.complete o k v h1 h2
  fbp := by
    intro b hb
    obtain ⟨r, h1, h2, h3⟩ := h.fbp b hb
    exact ⟨r, by simpa using h1, h2, h3⟩
  fbpNodup := h.fbpNodup

theorem re_appending {L : Lay} {pool pool' : List FB} (h : Appending e c L pool) : Appending e (c.re ip cap) L pool' where
  base := re_base h.base
  chain := by
    intro i hi
    obtain ⟨p, hp⟩ := h.chain i hi
    exact ⟨p, (re_path _ _ _).2 hp.path, hp.nodup, hp.mem, hp.newest⟩

/-- Fewer free blocks are as good. -/
theorem InPlace.pool {L : Lay} {pool pool' : List FB} (h : InPlace e c L pool) (hs : ∀ b ∈ pool', b ∈ pool)
    (hn : (pool'.map (·.off)).Nodup) : InPlace e c L pool' :=
  ⟨h.base, h.noRemove, h.uniq, h.chain, fun b hb => h.fbp b (hs b hb), hn⟩

/-- A file of the in-place mode can be used in the appending mode. -/
theorem InPlace.toAppending {L : Lay} {pool pool' : List FB} (h : InPlace e c L pool) : Appending e c L pool' where
  base := h.base
  chain := by
    intro i hi
    obtain ⟨p, hp⟩ := h.chain i hi
    refine ⟨p, hp.path, hp.nodup, hp.mem, ?_⟩
    intro k hk
    subst hk
    rcases h.find k hp with ⟨h1, h2⟩ | ⟨a, cur, r, b, h1, h2, h3, h4⟩
    · rw [h2, firstVal_none h1]
    · have hm := hp.mem (cur, r) (by rw [h1]; simp)
      have hr := h.noRemove r (recAt_mem (hp.path.at (cur, r) (by rw [h1]; simp)))
      have hs : r.op.isSet = true := by
        have h5 : r.op ≠ .void := hm.1
        cases ho : r.op <;> simp_all [OpType.isSet]
      rw [h4, h1, firstVal_some h3 h2, if_pos hs]

@[simp] theorem re_recBytes (r : Rec) : recBytes e (c.re ip cap) r = recBytes e c r := rfl

@[simp] theorem re_render (pre mid : Bytes) (L : Lay) : render e (c.re ip cap) pre mid L = render e c pre mid L := by
  have : recBytes e (c.re ip cap) = recBytes e c := funext fun r => rfl
  simp only [render, recsBytes, this]; rfl

theorem re_cfgOk (h : CfgOk c) (hc : 1 ≤ cap) : CfgOk (c.re ip cap) := ⟨h.ow, h.ap, h.cw, h.nb, hc⟩

theorem re_frame {pre mid : Bytes} (h : FrameOk c pre mid) : FrameOk (c.re ip cap) pre mid := ⟨h.pre, h.mid⟩

end Verif.Hash
