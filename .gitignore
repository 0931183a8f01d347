.lake/
*.olean
*.ilean
*.trace
lake-manifest.json
