import Verif.Go.Basic
/-! Model of pkg/dockerutil/docker.go. -/
namespace Cli
open Go

/-- the images that the Docker daemon knows, by tag -/
abbrev Daemon (ι : Type) := Str → Option ι

/-- the world in which `WithImage` runs: the process number and the time, what `name.NewTag` accepts, whether a pipe can be
made, whether `docker image load` can be started, whether the archive can be written to the pipe in full and the pipe be
closed, what `docker image load` does when given an archive (`none` = an incomplete one) and whether it succeeds, what
`docker image rm` does and whether it succeeds, and whether the context is cancelled by the time the image is to be removed -/
structure DockerEnv (ι : Type) where
  pid : Int
  nanos : Int
  validTag : Str → Bool
  pipe : Bool
  start : Bool
  write : Bool
  close : Bool
  load : Option (Str × ι) → Daemon ι → Daemon ι × Bool
  rm : Str → Daemon ι → Daemon ι × Bool
  cancelled : Bool

/-- docker.go:15-18 `newTag`: the text of the tag -/
def tagText (repo : Str) (pid nanos : Int) : Str := "ocibuild.local/".toList ++ repo ++ ':' :: itoa pid ++ '.' :: itoa nanos

/-- what happened: `docker image load` ended (and what it was given), `fn` was called (with which tag, and the daemon's
images at that time), `docker image rm` ended -/
inductive DockerEvent (ι : Type) where
  | loaded (given : Option (Str × ι))
  | called (tag : Str) (images : Daemon ι)
  | removed (tag : Str)

/-- what a call leaves behind: the daemon's images, what happened, and whether nil is returned -/
structure DockerOut (ι : Type) where
  images : Daemon ι
  events : List (DockerEvent ι)
  ok : Bool

/-- docker.go:26-30 and 36-38: the function deferred first, and so run last.  With a cancelled context (os/exec) the command is
not started, and its `Run` returns an error. -/
def dockerCleanup {ι : Type} (e : DockerEnv ι) (tag : Str) (o : DockerOut ι) : DockerOut ι :=
  if e.cancelled then { o with ok := false }
  else { images := (e.rm tag o.images).1, events := o.events ++ [.removed tag], ok := o.ok && (e.rm tag o.images).2 }

/-- docker.go:20-61 `WithImage`.  `fn` gives the images after it, and whether it returns nil.  When the archive is not written
in full, the function deferred at 47-50 closes the pipe and waits for `docker image load`. -/
def withImage {ι : Type} (e : DockerEnv ι) (imgname : Str) (img : ι) (fn : Str → Daemon ι → Daemon ι × Bool) (d : Daemon ι) : DockerOut ι :=
  let tag := tagText imgname e.pid e.nanos
  if !e.validTag tag then ⟨d, [], false⟩
  else if !e.pipe || !e.start then dockerCleanup e tag ⟨d, [], false⟩
  else if !e.write then dockerCleanup e tag ⟨(e.load none d).1, [.loaded none], false⟩
  else if !e.close then dockerCleanup e tag ⟨(e.load (some (tag, img)) d).1, [.loaded (some (tag, img))], false⟩
  else if !(e.load (some (tag, img)) d).2 then dockerCleanup e tag ⟨(e.load (some (tag, img)) d).1, [.loaded (some (tag, img))], false⟩
  else
    let d1 := (e.load (some (tag, img)) d).1
    dockerCleanup e tag ⟨(fn tag d1).1, [.loaded (some (tag, img)), .called tag d1], (fn tag d1).2⟩

end Cli
