import Verif.Model.Backend
/-
Texts of `JobStatus`, /repo/src/mqt/qudits/simulation/jobs/jobstatus.py 17-51.

Simplification.  `str.lower` of Python is the argument `lower`: for letters outside ASCII it follows the Unicode tables, which are not
modelled.
-/
namespace Qudits

/-- `JobStatus.description`, jobstatus.py 21-32. -/
def JobStatus.description : JobStatus → String
  | .initializing => "Job is being initialized"
  | .queued => "Job is waiting in the queue"
  | .validating => "Job is being validated"
  | .running => "Job is actively running"
  | .cancelled => "Job has been cancelled"
  | .done => "Job has successfully run"
  | .error => "Job incurred an error"

/-- `JobStatus.__str__`, jobstatus.py 17-19. -/
def JobStatus.str (s : JobStatus) : String := s.description

/-- `JobStatus.from_string`, jobstatus.py 34-51. -/
def JobStatus.ofText (lower : String → String) (text : String) : Except PyErr JobStatus := JobStatus.fromString (lower text)

end Qudits
