import Mathlib.Data.List.Basic

/-!
# The log file of the solver

Model of what `solvePrizeCollectingTSP` does with the file of SCIP's log: src/algorithms.cpp 148-151 (a message handler that writes to the file), 224-226 (the same file is opened again, for SCIP's
statistics, and not closed) and 233 (the message handler is released).  A specification of code outside: SCIP's handler opens the file for appending, prints messages for no file to its own
file and closes it when nothing uses it any more, which is when Python frees the model after the run (pctsp/lab/run_algorithm.py 216-244); `fopen` gives no stream if the process has no descriptor left; text in the buffer of a stream is written when the process ends, newest stream first,
and not if it is killed.  Nothing else that a run opens stays open.
-/

namespace Pctsp

/-- Writing at an offset of a file: what is there is overwritten, a hole before it is filled with zeros. -/
def writeAt (old : List Char) (off : Nat) (t : List Char) : List Char := (old ++ List.replicate (off - old.length) '\x00').take off ++ t ++ old.drop (off + t.length)

/-- A run of the solver in a directory: SCIP's messages, those that are on the disk when the statistics are printed and those in the buffer; SCIP's statistics, the part that is written at once and the
part that stays in the buffer. -/
structure LoggedRun where
  dir : Nat
  early : List Char
  late : List Char
  shown : List Char
  rest : List Char

/-- The files and the streams that are open, newest first: the file, the offset and the text in the buffer. -/
structure LogDisk where
  files : Nat → List Char
  streams : List (Nat × Nat × List Char)

def setLog (files : Nat → List Char) (f : Nat) (t : List Char) : Nat → List Char := fun f' => if f' = f then t else files f'

/-- One run, algorithms.cpp 148-151, 224-226 and 233; `room` is the number of descriptors that the process has left before its first run, less the one of
the message handler. -/
def logRun (room : Nat) (s : LogDisk) (r : LoggedRun) : LogDisk :=
  let messages := s.files r.dir ++ r.early
  if s.streams.length < room then
    -- `fopen` with "w" empties the file
    let file := writeAt [] 0 r.shown
    { files := setLog s.files r.dir (file ++ r.late), streams := (r.dir, r.shown.length, r.rest) :: s.streams }
  else
    -- `SCIPprintStatistics(scip, NULL)` prints to the log of the message handler
    { s with files := setLog s.files r.dir (messages ++ r.late ++ (r.shown ++ r.rest)) }

/-- The runs of a process. -/
def logRuns (room : Nat) (s : LogDisk) (rs : List LoggedRun) : LogDisk := rs.foldl (logRun room) s

/-- The process ends: the buffers are written. -/
def logExit (s : LogDisk) : Nat → List Char := s.streams.foldl (fun files x => setLog files x.1 (writeAt (files x.1) x.2.1 x.2.2)) s.files

end Pctsp
